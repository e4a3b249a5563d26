/-
C29: buffered output is transparent.  C31 (writing): the text of an integer.
-/
import Verif.IO.WriterModel
import Mathlib.Data.Nat.Digits.Lemmas
import Mathlib.Tactic.Ring
import Mathlib.Tactic.Linarith

namespace Altruct.IO

/-! ### Specification -/

/-- The decimal text of an integer, with at least `len` digits. -/
def intText (d : Int) (len : Nat) : List Int :=
  (if d < 0 then [45] else []) ++ List.replicate (len - (Nat.digits 10 d.natAbs).length) 48
    ++ (Nat.digits 10 d.natAbs).reverse.map fun k : Nat => 48 + (k : Int)

/-- The characters a call writes. -/
def WOp.text : WOp → List Int
  | .char c => [toChar c]
  | .write b => b
  | .chars b => b.map toChar
  | .int d len => intText d len
  | .format _ t => t
  | .reserve _ => []
  | .flush => []

/-- The calls that are allowed with a buffer of the given capacity: integers are not the least value of the type and
have at most 50 digits; formatted text has no zero character and fits into the space asked for. -/
def WOp.Valid (lo : Int) (capacity : Nat) : WOp → Prop
  | .int d len => d ≠ lo ∧ d.natAbs < 10 ^ 50 ∧ len ≤ 50
  | .format n t => t.length ≤ n ∧ n ≤ capacity ∧ 0 ∉ t
  | _ => True

/-! ### Copying -/

theorem copyTo_spec : ∀ (cs : List Int) (b : List Int) (i : Nat), i + cs.length ≤ b.length →
    copyTo b i cs = some (b.take i ++ cs ++ b.drop (i + cs.length)) := by
  intro cs
  induction cs with
  | nil => intro b i h; simp [copyTo]
  | cons c cs ih =>
    intro b i h
    rw [List.length_cons] at h
    rw [copyTo, wr, if_pos (by omega)]
    simp only [Option.bind_eq_bind, Option.bind_some]
    rw [ih (b.set i c) (i + 1) (by rw [List.length_set]; omega)]
    congr 1
    have : (b.set i c).take (i + 1) = b.take i ++ [c] := by
      rw [← List.take_append_getElem (by rw [List.length_set]; omega), List.getElem_set_self, List.take_set_of_le (Nat.le_refl _)]
    rw [this, List.drop_set_of_lt (by omega), List.length_cons, show i + 1 + cs.length = i + (cs.length + 1) by omega]
    simp

/-! ### The invariant -/

/-- The buffer holds what the sink has not received yet. -/
structure WInv (s : Writer) (cap : Nat) (w : List Int) : Prop where
  cap_eq : s.capacity = cap
  len : s.buff.length = cap + 1
  ptr_le : s.ptr ≤ cap
  all : s.sink ++ s.buff.take s.ptr = w

theorem WInv.init (raw : List Int) (cap : Nat) (h : raw.length = cap + 1) : ∃ s, Writer.mk' raw cap = some s ∧ WInv s cap [] := by
  refine ⟨⟨raw.set cap 0, 0, cap, []⟩, ?_, rfl, by simpa using h, Nat.zero_le _, by simp⟩
  rw [Writer.mk', wr, if_pos (by omega)]
  rfl

theorem WInv.flush {s : Writer} {cap : Nat} {w : List Int} (h : WInv s cap w) (zero : Bool) :
    ∃ s', s.flush zero = some s' ∧ WInv s' cap w ∧ s'.sink = w ∧ s'.ptr = 0 := by
  have hl := h.len
  have hp := h.ptr_le
  cases zero with
  | false =>
    refine ⟨{ s with sink := s.sink ++ s.buff.take s.ptr, ptr := 0 }, ?_, ⟨h.cap_eq, hl, Nat.zero_le _, by simpa using h.all⟩, h.all, rfl⟩
    rw [Writer.flush, if_pos (by omega)]
    rfl
  | true =>
    refine ⟨{ s with sink := s.sink ++ s.buff.take s.ptr, ptr := 0, buff := s.buff.set 0 0 }, ?_,
      ⟨h.cap_eq, by rw [List.length_set]; exact hl, Nat.zero_le _, by simpa using h.all⟩, h.all, rfl⟩
    rw [Writer.flush, if_pos (by omega), if_pos rfl, wr, if_pos (by omega)]
    rfl

theorem WInv.writeChar {s : Writer} {cap : Nat} {w : List Int} (h : WInv s cap w) (hcap : 1 ≤ cap) (zero : Bool) (c : Int) :
    ∃ s', s.writeChar zero c = some s' ∧ WInv s' cap (w ++ [toChar c]) := by
  have key : ∀ s : Writer, WInv s cap w → s.ptr < cap → ∃ s' : Writer, (do
      let b ← wr s.buff s.ptr (toChar c)
      some { s with buff := b, ptr := s.ptr + 1 } : Option Writer) = some s' ∧ WInv s' cap (w ++ [toChar c]) := by
    intro s h hp
    have hl := h.len
    refine ⟨{ s with buff := s.buff.set s.ptr (toChar c), ptr := s.ptr + 1 }, ?_, h.cap_eq, by rw [List.length_set]; exact hl, by change s.ptr + 1 ≤ cap; omega, ?_⟩
    · rw [wr, if_pos (by omega)]; rfl
    · change s.sink ++ (s.buff.set s.ptr (toChar c)).take (s.ptr + 1) = _
      rw [← List.take_append_getElem (by rw [List.length_set]; omega), List.getElem_set_self, List.take_set_of_le (Nat.le_refl _), ← List.append_assoc, h.all]
  rw [Writer.writeChar]
  by_cases hp : s.ptr ≥ s.capacity
  · obtain ⟨s1, e1, h1, -, hp1⟩ := h.flush zero
    rw [if_pos hp, e1]
    simp only [Option.bind_eq_bind, Option.bind_some]
    exact key s1 h1 (by omega)
  · rw [if_neg hp]
    simp only [Option.bind_eq_bind, Option.bind_some]
    exact key s h (by rw [← h.cap_eq]; omega)

theorem WInv.writeChars {cap : Nat} (hcap : 1 ≤ cap) (zero : Bool) : ∀ (cs : List Int) (s : Writer) (w : List Int), WInv s cap w →
    ∃ s', s.writeChars zero cs = some s' ∧ WInv s' cap (w ++ cs.map toChar) := by
  intro cs
  induction cs with
  | nil => intro s w h; exact ⟨s, rfl, by simpa using h⟩
  | cons c cs ih =>
    intro s w h
    obtain ⟨s1, e1, h1⟩ := h.writeChar hcap zero c
    obtain ⟨s2, e2, h2⟩ := ih s1 _ h1
    refine ⟨s2, ?_, by simpa using h2⟩
    rw [Writer.writeChars, e1]
    exact e2

theorem WInv.put {s : Writer} {cap : Nat} {w : List Int} (h : WInv s cap w) (cs : List Int) (hf : s.ptr + cs.length ≤ cap) :
    copyTo s.buff s.ptr cs = some (s.buff.take s.ptr ++ cs ++ s.buff.drop (s.ptr + cs.length)) ∧
    WInv { s with buff := s.buff.take s.ptr ++ cs ++ s.buff.drop (s.ptr + cs.length), ptr := s.ptr + cs.length } cap (w ++ cs) := by
  have hl := h.len
  have hlt : (s.buff.take s.ptr).length = s.ptr := by rw [List.length_take]; omega
  refine ⟨copyTo_spec cs s.buff s.ptr (by omega), h.cap_eq, ?_, hf, ?_⟩
  · simp only [List.length_append, List.length_drop, hlt]; omega
  · change s.sink ++ (s.buff.take s.ptr ++ cs ++ s.buff.drop (s.ptr + cs.length)).take (s.ptr + cs.length) = _
    rw [List.take_append_of_le_length (by rw [List.length_append, hlt]), List.take_of_length_le (by rw [List.length_append, hlt]), ← List.append_assoc, h.all]

theorem WInv.write {cap : Nat} (hcap : 1 ≤ cap) (zero : Bool) : ∀ (fuel : Nat) (s : Writer) (w b : List Int), WInv s cap w →
    b.length + (if s.ptr = cap then 1 else 0) ≤ fuel → ∃ s', s.write zero fuel b = some s' ∧ WInv s' cap (w ++ b) := by
  intro fuel
  induction fuel with
  | zero =>
    intro s w b h hb
    have : b = [] := List.length_eq_zero_iff.mp (by omega)
    subst this
    exact ⟨s, by rw [Writer.write, if_neg (by simp)], by simpa using h⟩
  | succ fuel ih =>
    intro s w b h hb
    have hc := h.cap_eq
    have hp := h.ptr_le
    by_cases hb0 : b.length > 0
    · rw [Writer.write.eq_def]
      simp only
      rw [if_pos hb0, if_pos (by omega)]
      have hlen : (b.take (min (s.capacity - s.ptr) b.length)).length = min (s.capacity - s.ptr) b.length := by rw [List.length_take]; omega
      obtain ⟨e1, h1⟩ := h.put (b.take (min (s.capacity - s.ptr) b.length)) (by rw [hlen]; omega)
      rw [hlen] at e1 h1
      rw [e1]
      simp only [Option.bind_eq_bind, Option.bind_some]
      by_cases hr : (b.drop (min (s.capacity - s.ptr) b.length)).length > 0
      · rw [if_pos hr]
        obtain ⟨s2, e2, h2, -, hp2⟩ := h1.flush zero
        rw [e2]
        simp only [Option.bind_some]
        rw [List.length_drop] at hr
        obtain ⟨s3, e3, h3⟩ := ih s2 _ (b.drop (min (s.capacity - s.ptr) b.length)) h2 (by
          rw [hp2, if_neg (by omega), List.length_drop]
          split at hb <;> omega)
        refine ⟨s3, e3, ?_⟩
        rw [List.append_assoc, List.take_append_drop] at h3
        exact h3
      · rw [if_neg hr]
        have hr' : b.drop (min (s.capacity - s.ptr) b.length) = [] := List.length_eq_zero_iff.mp (by omega)
        have ht : b.take (min (s.capacity - s.ptr) b.length) = b := by
          conv_rhs => rw [← List.take_append_drop (min (s.capacity - s.ptr) b.length) b, hr', List.append_nil]
        rw [ht] at h1
        refine ⟨_, ?_, h1⟩
        rw [hr', Writer.write.eq_def]
        simp only
        rw [if_neg (by simp), ht]
    · have : b = [] := List.length_eq_zero_iff.mp (by omega)
      subst this
      exact ⟨s, by rw [Writer.write, if_neg (by simp)], by simpa using h⟩

theorem WInv.reserve {s : Writer} {cap : Nat} {w : List Int} (h : WInv s cap w) (zero : Bool) (count : Nat) :
    ∃ s', s.reserve zero count = some (s', cap - s'.ptr) ∧ WInv s' cap w ∧ (count ≤ cap → count ≤ cap - s'.ptr) := by
  have hc := h.cap_eq
  have hp := h.ptr_le
  rw [Writer.reserve, if_pos (by omega)]
  by_cases ha : s.capacity - s.ptr ≥ count
  · exact ⟨s, by rw [if_pos ha, hc], h, fun _ => by omega⟩
  · obtain ⟨s1, e1, h1, -, hp1⟩ := h.flush zero
    refine ⟨s1, ?_, h1, fun _ => by omega⟩
    rw [if_neg ha, e1]
    simp only [Option.bind_eq_bind, Option.bind_some]
    rw [h1.cap_eq]

theorem strlen_spec : ∀ (t b rest : List Int) (i fuel : Nat), b.drop i = t ++ 0 :: rest → 0 ∉ t → t.length < fuel → strlen b fuel i = some t.length := by
  intro t
  induction t with
  | nil =>
    intro b rest i fuel h _ hf
    obtain ⟨fuel, rfl⟩ : ∃ k, fuel = k + 1 := ⟨fuel - 1, by simp at hf; omega⟩
    have : b[i]? = some 0 := by
      have := congrArg (fun l => l[0]?) h
      simpa using this
    rw [strlen, rd, this]
    rfl
  | cons c t ih =>
    intro b rest i fuel h h0 hf
    obtain ⟨fuel, rfl⟩ : ∃ k, fuel = k + 1 := ⟨fuel - 1, by simp at hf; omega⟩
    rw [List.length_cons] at hf
    have hc : b[i]? = some c := by
      have := congrArg (fun l => l[0]?) h
      simpa using this
    have hd : b.drop (i + 1) = t ++ 0 :: rest := by
      have := congrArg List.tail h
      simpa [List.tail_drop] using this
    have hc0 : ¬ c = 0 := fun h => h0 (by simp [h])
    rw [strlen, rd, hc]
    simp only [Option.bind_eq_bind, Option.bind_some]
    rw [if_neg hc0, ih b rest (i + 1) fuel hd (fun h => h0 (List.mem_cons_of_mem _ h)) (by omega)]
    rfl

theorem WInv.format {s : Writer} {cap : Nat} {w : List Int} (h : WInv s cap w) (zero : Bool) (count : Nat) (t : List Int)
    (h1 : t.length ≤ count) (h2 : count ≤ cap) (h3 : 0 ∉ t) : ∃ s', s.format zero count t = some s' ∧ WInv s' cap (w ++ t) := by
  obtain ⟨s1, e1, hI, ha⟩ := h.reserve zero count
  have ha := ha h2
  have hp := hI.ptr_le
  have hl := hI.len
  have hlt : (s1.buff.take s1.ptr).length = s1.ptr := by rw [List.length_take]; omega
  rw [Writer.format, e1]
  simp only [Option.bind_eq_bind, Option.bind_some]
  rw [if_pos ha, copyTo_spec _ _ _ (by rw [List.length_append, List.length_singleton]; omega)]
  simp only [Option.bind_some]
  rw [strlen_spec t _ (s1.buff.drop (s1.ptr + (t ++ [0]).length)) s1.ptr _ (by
    rw [List.append_assoc, List.drop_append_of_le_length (by omega), List.drop_of_length_le (by omega)]
    simp) h3 (by simp only [List.length_append, List.length_drop, hlt, List.length_singleton]; omega)]
  refine ⟨_, rfl, hI.cap_eq, ?_, ?_, ?_⟩
  · simp only [List.length_append, List.length_drop, hlt, List.length_singleton]; omega
  · change s1.ptr + t.length ≤ cap; omega
  · change s1.sink ++ (s1.buff.take s1.ptr ++ (t ++ [0]) ++ _).take (s1.ptr + t.length) = _
    rw [List.append_assoc, List.take_append, hlt, List.take_of_length_le (by omega), show s1.ptr + t.length - s1.ptr = t.length by omega, List.append_assoc,
      List.take_append_of_le_length (Nat.le_refl _), List.take_of_length_le (Nat.le_refl _), ← List.append_assoc, hI.all]

/-! ### Integers -/

theorem toChar_digit (k : Nat) (hk : k < 10) : toChar ((k : Int) + 48) = 48 + (k : Int) := by
  rw [toChar]; omega

theorem digitLoop_spec (size len : Nat) (hlen : len ≤ size) : ∀ (fuel i d : Nat) (tc : List Int), size < i + fuel → d < 10 ^ (size - i) →
    digitLoop size len fuel i (d : Int) tc
      = tc ++ (Nat.digits 10 d ++ List.replicate (len - i - (Nat.digits 10 d).length) 0).map fun k : Nat => 48 + (k : Int) := by
  intro fuel
  induction fuel with
  | zero =>
    intro i d tc h1 h2
    rw [show size - i = 0 by omega, pow_zero] at h2
    have : d = 0 := by omega
    subst this
    rw [digitLoop, Nat.digits_zero, show len - i - ([] : List Nat).length = 0 by simp; omega]
    simp
  | succ fuel ih =>
    intro i d tc h1 h2
    rw [digitLoop]
    by_cases hd : 0 < d
    · have hi : i < size := by
        by_contra h
        rw [show size - i = 0 by omega, pow_zero] at h2
        omega
      rw [if_pos ⟨Or.inl (by exact_mod_cast hd), hi⟩]
      have e1 : ((d : Int).tdiv 10) = ((d / 10 : Nat) : Int) := by
        rw [Int.tdiv_eq_ediv_of_nonneg (by omega)]; norm_cast
      have e2 : ((d : Int).tmod 10) = ((d % 10 : Nat) : Int) := by
        rw [Int.tmod_eq_emod_of_nonneg (by omega)]; norm_cast
      rw [e1, e2, toChar_digit _ (Nat.mod_lt _ (by omega)), ih (i + 1) (d / 10) _ (by omega) (by
        rw [Nat.div_lt_iff_lt_mul (by omega), ← pow_succ, show size - (i + 1) + 1 = size - i by omega]; exact h2)]
      rw [Nat.digits_def' (by omega) hd]
      simp only [List.append_assoc, List.length_cons, List.map_append, List.map_cons, List.cons_append, List.nil_append]
      rw [show len - (i + 1) - (Nat.digits 10 (d / 10)).length = len - i - ((Nat.digits 10 (d / 10)).length + 1) by omega]
    · have hd0 : d = 0 := by omega
      subst hd0
      by_cases hi : i < len
      · rw [if_pos ⟨Or.inr hi, by omega⟩]
        have := ih (i + 1) 0 (tc ++ [48]) (by omega) (by positivity)
        simp only [Nat.cast_zero] at this
        change digitLoop size len fuel (i + 1) ((0 : Int).tdiv 10) (tc ++ [toChar (48)]) = _
        rw [show ((0 : Int).tdiv 10) = 0 from rfl, show toChar 48 = 48 from rfl, this, Nat.digits_zero]
        simp only [List.nil_append, List.length_nil, Nat.sub_zero, List.append_assoc]
        rw [show len - i = (len - (i + 1)) + 1 by omega, List.replicate_succ]
        simp
      · rw [if_neg (by rintro ⟨h | h, _⟩ <;> simp_all), Nat.digits_zero, show len - i - ([] : List Nat).length = 0 by simp; omega]
        simp

theorem map_toChar_digits (ds : List Nat) (h : ∀ k ∈ ds, k < 10) :
    (ds.map fun k : Nat => 48 + (k : Int)).map toChar = ds.map fun k : Nat => 48 + (k : Int) := by
  rw [List.map_map]
  apply List.map_congr_left
  intro k hk
  have := h k hk
  simp only [Function.comp, toChar]
  omega

theorem WInv.writeInt {s : Writer} {cap : Nat} {w : List Int} (h : WInv s cap w) (hcap : 1 ≤ cap) (zero : Bool) (lo d : Int) (len : Nat)
    (h1 : d ≠ lo) (h2 : d.natAbs < 10 ^ 50) (h3 : len ≤ 50) : ∃ s', s.writeInt zero lo d len = some s' ∧ WInv s' cap (w ++ intText d len) := by
  have key : ∀ (s : Writer) (w : List Int), WInv s cap w → ∃ s', s.writeChars zero (digitLoop 50 len 51 0 (d.natAbs : Int) []).reverse = some s' ∧
      WInv s' cap (w ++ (List.replicate (len - (Nat.digits 10 d.natAbs).length) 48 ++ (Nat.digits 10 d.natAbs).reverse.map fun k : Nat => 48 + (k : Int))) := by
    intro s w h
    obtain ⟨s', e, h'⟩ := WInv.writeChars hcap zero (digitLoop 50 len 51 0 (d.natAbs : Int) []).reverse s w h
    refine ⟨s', e, ?_⟩
    rw [digitLoop_spec 50 len h3 51 0 d.natAbs [] (by omega) h2, List.nil_append, ← List.map_reverse, map_toChar_digits, List.reverse_append,
      List.reverse_replicate, List.map_append, List.map_replicate, Nat.sub_zero] at h'
    · exact h'
    · intro k hk
      rw [List.mem_reverse, List.mem_append] at hk
      rcases hk with hk | hk
      · exact Nat.digits_lt_base (by omega) hk
      · rw [List.eq_of_mem_replicate hk]; omega
  rw [Writer.writeInt]
  by_cases hd : d < 0
  · obtain ⟨s1, e1, hI⟩ := h.writeChar hcap zero 45
    rw [if_pos hd, if_neg h1, e1]
    simp only [Option.bind_eq_bind, Option.bind_some]
    rw [show -d = (d.natAbs : Int) by omega]
    obtain ⟨s2, e2, h2⟩ := key s1 _ hI
    refine ⟨s2, e2, ?_⟩
    rw [intText, if_pos hd]
    simpa [toChar] using h2
  · rw [if_neg hd]
    simp only [Option.bind_eq_bind, Option.bind_some]
    have hd' : d = (d.natAbs : Int) := by omega
    obtain ⟨s2, e2, h2⟩ := key s w h
    refine ⟨s2, by rw [← e2, ← hd'], ?_⟩
    rw [intText, if_neg hd]
    simpa using h2

/-! ### Histories -/

theorem WInv.step {s : Writer} {cap : Nat} {w : List Int} (h : WInv s cap w) (hcap : 1 ≤ cap) (zero : Bool) (lo : Int) (op : WOp) (hv : op.Valid lo cap) :
    ∃ s', s.step zero lo op = some s' ∧ WInv s' cap (w ++ op.text) := by
  cases op with
  | char c => exact h.writeChar hcap zero c
  | write b => exact WInv.write hcap zero _ s w b h (by split <;> omega)
  | chars b => exact WInv.writeChars hcap zero b s w h
  | int d len => exact h.writeInt hcap zero lo d len hv.1 hv.2.1 hv.2.2
  | format n t => exact h.format zero n t hv.1 hv.2.1 hv.2.2
  | reserve n =>
    obtain ⟨s1, e1, h1, -⟩ := h.reserve zero n
    refine ⟨s1, by rw [Writer.step, e1]; rfl, by simpa [WOp.text] using h1⟩
  | flush =>
    obtain ⟨s1, e1, h1, -⟩ := h.flush zero
    exact ⟨s1, e1, by simpa [WOp.text] using h1⟩

theorem WInv.run {cap : Nat} (hcap : 1 ≤ cap) (zero : Bool) (lo : Int) : ∀ (ops : List WOp) (s : Writer) (w : List Int), WInv s cap w →
    (∀ op ∈ ops, op.Valid lo cap) → ∃ s', s.run zero lo ops = some s' ∧ WInv s' cap (w ++ (ops.map WOp.text).flatten) := by
  intro ops
  induction ops with
  | nil => intro s w h _; exact ⟨s, rfl, by simpa using h⟩
  | cons op ops ih =>
    intro s w h hv
    obtain ⟨s1, e1, h1⟩ := h.step hcap zero lo op (hv op List.mem_cons_self)
    obtain ⟨s2, e2, h2⟩ := ih s1 _ h1 (fun o ho => hv o (List.mem_cons_of_mem _ ho))
    refine ⟨s2, ?_, by simpa using h2⟩
    rw [Writer.run, e1]
    exact e2

/-- **C29**: after any history of calls, on a buffer of any positive capacity with any initial content, nothing has
gone wrong, what the sink has received is a prefix of what was written, and a further flush completes it to exactly
what was written, in order. -/
theorem C29_history (zero : Bool) (lo : Int) (raw : List Int) (cap : Nat) (hcap : 1 ≤ cap) (hraw : raw.length = cap + 1) (ops : List WOp)
    (hv : ∀ op ∈ ops, op.Valid lo cap) :
    ∃ s0 s s', Writer.mk' raw cap = some s0 ∧ s0.run zero lo ops = some s ∧ s.sink <+: (ops.map WOp.text).flatten ∧
      s.flush zero = some s' ∧ s'.sink = (ops.map WOp.text).flatten := by
  obtain ⟨s0, e0, h0⟩ := WInv.init raw cap hraw
  obtain ⟨s, e, h⟩ := WInv.run hcap zero lo ops s0 [] h0 hv
  obtain ⟨s', e', -, h', -⟩ := h.flush zero
  rw [List.nil_append] at h h'
  exact ⟨s0, s, s', e0, e, ⟨_, h.all⟩, e', h'⟩

/-- **C31**: an integer is written as its decimal text, with the requested number of digits, whatever the capacity. -/
theorem C31_write_int (zero : Bool) (lo : Int) (raw : List Int) (cap : Nat) (hcap : 1 ≤ cap) (hraw : raw.length = cap + 1) (d : Int) (len : Nat)
    (h1 : d ≠ lo) (h2 : d.natAbs < 10 ^ 50) (h3 : len ≤ 50) :
    ∃ s0 s s', Writer.mk' raw cap = some s0 ∧ s0.writeInt zero lo d len = some s ∧ s.flush zero = some s' ∧ s'.sink = intText d len := by
  obtain ⟨s0, e0, h0⟩ := WInv.init raw cap hraw
  obtain ⟨s, e, h⟩ := h0.writeInt hcap zero lo d len h1 h2 h3
  obtain ⟨s', e', -, h', -⟩ := h.flush zero
  exact ⟨s0, s, s', e0, e, e', by simpa using h'⟩

example : intText (-42) 5 = [45, 48, 48, 48, 52, 50] := by simp [intText]

example : ((Writer.mk' [9, 9, 9, 9] 3).bind fun s => s.run true (-2^31) [.write [65, 66, 67, 68, 69], .int (-120) 1, .format 3 [97, 98], .char 300, .flush]).map Writer.sink
    = some [65, 66, 67, 68, 69, 45, 49, 50, 48, 97, 98, 44] := by decide +kernel

/-- With a buffer of capacity zero, writing a block never ends, whatever the number of iterations allowed. -/
theorem C29_capacity_zero (zero : Bool) (fuel : Nat) (raw : List Int) (hraw : raw.length = 1) (c : Int) (cs : List Int) (s : Writer)
    (hs : Writer.mk' raw 0 = some s) : s.write zero fuel (c :: cs) = none := by
  obtain ⟨s0, e0, h0⟩ := WInv.init raw 0 hraw
  obtain rfl : s0 = s := Option.some.inj (e0.symm.trans hs)
  clear e0 hs
  have hp0 : s0.ptr = 0 := by have := h0.ptr_le; omega
  generalize ([] : List Int) = w at h0
  induction fuel generalizing s0 w with
  | zero => rw [Writer.write, if_pos (by simp)]
  | succ fuel ih =>
    have hc := h0.cap_eq
    rw [Writer.write.eq_def]
    simp only
    rw [if_pos (by simp), if_pos (by omega), show min (s0.capacity - s0.ptr) (c :: cs).length = 0 by omega]
    simp only [List.take_zero, copyTo, Option.bind_eq_bind, Option.bind_some, List.drop_zero, Nat.add_zero]
    rw [if_pos (by simp)]
    obtain ⟨s1, e1, h1, -, hp1⟩ := h0.flush zero
    change (s0.flush zero).bind _ = none
    rw [e1]
    exact ih s1 hp1 w h1

/-! ### `string_writer` -/

/-- **C29**: a `string_writer` over an array of `cap` characters keeps exactly the first `cap` characters that are
written to it and never writes outside the array. -/
theorem C29_string_writer (out : List Int) (cap : Nat) (h : out.length = cap) (ops : List WOp)
    (hv : ∀ op ∈ ops, match op with | .char _ => True | .write _ => True | .flush => True | _ => False) :
    ∃ s, (SWriter.mk out cap 0).run ops = some s ∧ s.out.length = cap ∧ s.out.take s.pos = ((ops.map WOp.text).flatten).take cap := by
  have key : ∀ (ops : List WOp) (s : SWriter) (w : List Int), s.capacity = cap → s.out.length = cap → s.pos ≤ cap → s.out.take s.pos = w.take cap →
      s.pos = min w.length cap → (∀ op ∈ ops, match op with | .char _ => True | .write _ => True | .flush => True | _ => False) →
      ∃ s', s.run ops = some s' ∧ s'.out.length = cap ∧ s'.out.take s'.pos = (w ++ (ops.map WOp.text).flatten).take cap := by
    intro ops
    induction ops with
    | nil => intro s w h1 h2 h3 h4 h5 _; exact ⟨s, rfl, h2, by simpa using h4⟩
    | cons op ops ih =>
      intro s w h1 h2 h3 h4 h5 hv
      have hput : ∀ cs : List Int, s.pos + cs.length ≤ cap → (s.out.take s.pos ++ cs ++ s.out.drop (s.pos + cs.length)).length = cap ∧
          (s.out.take s.pos ++ cs ++ s.out.drop (s.pos + cs.length)).take (s.pos + cs.length) = w.take cap ++ cs := by
        intro cs hcs
        have hlt : (s.out.take s.pos).length = s.pos := by rw [List.length_take]; omega
        refine ⟨by simp only [List.length_append, List.length_drop, hlt]; omega, ?_⟩
        rw [List.take_append_of_le_length (by rw [List.length_append, hlt]), List.take_of_length_le (by rw [List.length_append, hlt]), h4]
      have hfull : ∀ t : List Int, s.pos ≥ cap → (w ++ t).take cap = w.take cap := by
        intro t hp
        rw [List.take_append_of_le_length (by omega)]
      have step : ∃ s', s.step op = some s' ∧ s'.capacity = cap ∧ s'.out.length = cap ∧ s'.pos ≤ cap ∧ s'.out.take s'.pos = (w ++ op.text).take cap ∧
          s'.pos = min (w ++ op.text).length cap := by
        have hop := hv op List.mem_cons_self
        cases op with
        | char c =>
          rw [SWriter.step, SWriter.writeChar]
          by_cases hp : s.pos ≥ s.capacity
          · exact ⟨s, by rw [if_pos hp], h1, h2, h3, by rw [hfull _ (by omega), h4], by rw [List.length_append]; omega⟩
          · rw [if_neg hp, wr, if_pos (by omega)]
            refine ⟨_, rfl, h1, by rw [List.length_set]; exact h2, by change s.pos + 1 ≤ cap; omega, ?_, ?_⟩
            · change (s.out.set s.pos (toChar c)).take (s.pos + 1) = _
              rw [← List.take_append_getElem (by rw [List.length_set]; omega), List.getElem_set_self, List.take_set_of_le (Nat.le_refl _), h4, WOp.text,
                List.take_of_length_le (by omega), List.take_of_length_le (by rw [List.length_append, List.length_singleton]; omega)]
            · change s.pos + 1 = _
              rw [List.length_append, WOp.text, List.length_singleton]; omega
        | write b =>
          rw [SWriter.step, SWriter.write]
          by_cases hp : s.pos ≥ s.capacity
          · exact ⟨s, by rw [if_pos hp], h1, h2, h3, by rw [hfull _ (by omega), h4], by rw [List.length_append]; omega⟩
          · have hbl : (b.take (min b.length (s.capacity - s.pos))).length = min b.length (s.capacity - s.pos) := by rw [List.length_take]; omega
            obtain ⟨p1, p2⟩ := hput (b.take (min b.length (s.capacity - s.pos))) (by rw [hbl]; omega)
            rw [if_neg hp]
            simp only
            rw [copyTo_spec _ _ _ (by rw [hbl]; omega)]
            refine ⟨_, rfl, h1, p1, by change s.pos + _ ≤ cap; omega, ?_, ?_⟩
            · rw [hbl] at p2 ⊢
              refine p2.trans ?_
              rw [WOp.text, List.take_append, List.take_of_length_le (l := w) (by omega)]
              congr 1
              by_cases hb : b.length ≤ s.capacity - s.pos
              · rw [List.take_of_length_le (by omega), List.take_of_length_le (by omega)]
              · rw [show min b.length (s.capacity - s.pos) = cap - w.length by omega]
            · change s.pos + min b.length (s.capacity - s.pos) = _
              rw [List.length_append, WOp.text]; omega
        | flush => exact ⟨s, rfl, h1, h2, h3, by simpa [WOp.text] using h4, by simpa [WOp.text] using h5⟩
        | _ => exact hop.elim
      obtain ⟨s1, e1, a1, a2, a3, a4, a5⟩ := step
      obtain ⟨s2, e2, b1, b2⟩ := ih s1 _ a1 a2 a3 a4 a5 (fun o ho => hv o (List.mem_cons_of_mem _ ho))
      refine ⟨s2, ?_, b1, by simpa using b2⟩
      rw [SWriter.run, e1]
      exact e2
  obtain ⟨s, e, h1, h2⟩ := key ops ⟨out, cap, 0⟩ [] rfl h (Nat.zero_le _) (by simp) (by simp) hv
  exact ⟨s, e, h1, by simpa using h2⟩

example : ((SWriter.mk [0, 0, 0, 0] 4 0).run [.char 65, .write [66, 67, 68, 69], .char 70]).map SWriter.out = some [65, 66, 67, 68] := by decide +kernel

end Altruct.IO
