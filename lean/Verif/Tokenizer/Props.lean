/-
C127: reading tokens from a stream.
-/
import Verif.Tokenizer.Model
import Mathlib.Data.List.TakeWhile
import Mathlib.Order.Basic
import Mathlib.Tactic.Conv

namespace Altruct.Tokenizer

/-! ### Specification -/

/-- An item: not empty, without delimiters, not beginning with white space. -/
structure Item (ws : Char → Bool) (ds : List Char) (i : List Char) : Prop where
  ne : i ≠ []
  delim : ∀ c ∈ i, c ∉ ds
  head : ∀ c, i.head? = some c → ws c = false

/-- A separator: one or more delimiters. -/
def Sep (ds : List Char) (s : List Char) : Prop := s ≠ [] ∧ ∀ c ∈ s, c ∈ ds

/-- White space. -/
def Blank (ws : Char → Bool) (w : List Char) : Prop := ∀ c ∈ w, ws c = true

/-- An item with the separator and the white space before it. -/
structure Entry where
  sep : List Char
  blank : List Char
  item : List Char

/-- The text of a list of entries. -/
def text (l : List Entry) : List Char := l.flatMap fun e => e.sep ++ (e.blank ++ e.item)

theorem text_cons (e : Entry) (l : List Entry) : text (e :: l) = e.sep ++ (e.blank ++ e.item) ++ text l := rfl

/-! ### Reading a token -/

theorem getLoop_eq (P : Char → Bool) (s : List Char) :
    getLoop P s = (s.takeWhile P, ⟨s.dropWhile P, !(s.dropWhile P).isEmpty⟩) := by
  induction s with
  | nil => rfl
  | cons c s ih =>
    rw [getLoop]
    by_cases h : P c = true
    · rw [if_pos h, ih, List.takeWhile_cons_of_pos h, List.dropWhile_cons_of_pos h]
    · rw [if_neg h, List.takeWhile_cons_of_neg h, List.dropWhile_cons_of_neg h]
      rfl

theorem dropWhile_all {p : Char → Bool} (x y : List Char) (hx : ∀ c ∈ x, p c = true) : (x ++ y).dropWhile p = y.dropWhile p := by
  induction x with
  | nil => rfl
  | cons c x ih => rw [List.cons_append, List.dropWhile_cons_of_pos (hx c (by simp)), ih (fun c h => hx c (by simp [h]))]

theorem takeWhile_all {p : Char → Bool} (x y : List Char) (hx : ∀ c ∈ x, p c = true) :
    (x ++ y).takeWhile p = x ++ y.takeWhile p := by
  induction x with
  | nil => rfl
  | cons c x ih =>
    rw [List.cons_append, List.takeWhile_cons_of_pos (hx c (by simp)), ih (fun c h => hx c (by simp [h])), List.cons_append]

theorem dropWhile_head {p : Char → Bool} (y : List Char) (hy : ∀ c, y.head? = some c → p c = false) : y.dropWhile p = y := by
  cases y with
  | nil => rfl
  | cons c y => rw [List.dropWhile_cons_of_neg (by rw [hy c rfl]; simp)]

theorem takeWhile_head {p : Char → Bool} (y : List Char) (hy : ∀ c, y.head? = some c → p c = false) : y.takeWhile p = [] := by
  cases y with
  | nil => rfl
  | cons c y => rw [List.takeWhile_cons_of_neg (by rw [hy c rfl]; simp)]

/-- Dropping stops in `x` or at `y`. -/
theorem dropWhile_part {p : Char → Bool} (x y : List Char) (hy : ∀ c, y.head? = some c → p c = false) :
    ∃ x', (x ++ y).dropWhile p = x' ++ y ∧ (∀ c ∈ x', c ∈ x) ∧ (x' = [] ∨ ∃ c, x'.head? = some c ∧ p c = false) := by
  induction x with
  | nil => exact ⟨[], dropWhile_head y hy, by simp, .inl rfl⟩
  | cons c x ih =>
    by_cases h : p c = true
    · obtain ⟨x', h1, h2, h3⟩ := ih
      exact ⟨x', by rw [List.cons_append, List.dropWhile_cons_of_pos h, h1], fun c hc => by simp [h2 c hc], h3⟩
    · exact ⟨c :: x, by rw [List.cons_append, List.dropWhile_cons_of_neg h], fun c hc => hc, .inr ⟨c, rfl, by simpa using h⟩⟩

theorem delimitedP_iff {ds : List Char} {c : Char} : delimitedP ds c = true ↔ c ∉ ds := by
  simp only [delimitedP, List.all_eq_true, bne_iff_ne, ne_eq]
  constructor
  · intro h hc; exact h c hc rfl
  · rintro h d hd rfl; exact h hd

theorem allowedP_iff {ds : List Char} {c : Char} : allowedP ds c = true ↔ c ∈ ds := by
  simp [allowedP]

theorem allowedP_eq (ds : List Char) : allowedP ds = notP (delimitedP ds) := by
  funext c
  rw [notP]
  by_cases h : c ∈ ds
  · rw [allowedP_iff.mpr h, Eq.comm, Bool.not_eq_true', Bool.eq_false_iff, ne_eq, delimitedP_iff]; exact fun k => k h
  · rw [delimitedP_iff.mpr h, Bool.not_true, Bool.eq_false_iff, ne_eq, allowedP_iff]; exact h

/-- After a separator and white space, the delimiter token leaves white space at most. -/
theorem sep_read (ws : Char → Bool) {ds s w y : List Char} (hs : ∀ c ∈ s, c ∈ ds) (hw : Blank ws w)
    (h1 : ∀ c, y.head? = some c → ws c = false) (h2 : ∀ c, y.head? = some c → allowedP ds c = false) :
    ∃ w', Blank ws w' ∧ ((s ++ (w ++ y)).dropWhile ws).dropWhile (allowedP ds) = w' ++ y := by
  obtain ⟨x', e, m, hx⟩ := dropWhile_part (p := ws) (s ++ w) y h1
  rw [← List.append_assoc, e]
  -- what is left of `s ++ w` begins inside `s`, or is empty
  have key : ∀ (s : List Char), (∀ c ∈ s, c ∈ ds) → ∃ x', (s ++ w ++ y).dropWhile ws = x' ++ y ∧
      (x' = [] ∨ ∃ s', (∀ c ∈ s', c ∈ ds) ∧ x' = s' ++ w) := by
    intro s
    induction s with
    | nil =>
      intro _
      refine ⟨[], ?_, .inl rfl⟩
      rw [List.nil_append, dropWhile_all w y hw, dropWhile_head y h1, List.nil_append]
    | cons c s ih =>
      intro hs
      by_cases h : ws c = true
      · obtain ⟨x', e, k⟩ := ih (fun c h => hs c (by simp [h]))
        exact ⟨x', by rw [List.cons_append, List.cons_append, List.dropWhile_cons_of_pos h, e], k⟩
      · exact ⟨c :: s ++ w, by rw [List.cons_append, List.cons_append, List.dropWhile_cons_of_neg h], .inr ⟨c :: s, hs, rfl⟩⟩
  obtain ⟨x2, e2, k⟩ := key s hs
  have : x' = x2 := List.append_cancel_right (e.symm.trans e2)
  subst this
  rcases k with rfl | ⟨s', hs', rfl⟩
  · exact ⟨[], by simp [Blank], by rw [List.nil_append, dropWhile_head y h2]⟩
  · rw [List.append_assoc, dropWhile_all s' _ (fun c h => allowedP_iff.mpr (hs' c h))]
    obtain ⟨w', e3, m3, -⟩ := dropWhile_part (p := allowedP ds) w y h2
    exact ⟨w', fun c h => hw c (m3 c h), e3⟩

theorem split_aux (ws : Char → Bool) (ds : List Char) (tail : List Char) (ht : ∀ c ∈ tail, c ∈ ds) :
    ∀ (l : List Entry), (∀ e ∈ l, Sep ds e.sep ∧ Blank ws e.blank ∧ Item ws ds e.item) →
    ∀ w i, Blank ws w → Item ws ds i →
      readDelimited ws ds (w ++ (i ++ (text l ++ tail))) = some (i :: l.map Entry.item) := by
  intro l
  induction l with
  | nil =>
    intro _ w i hw hi
    rw [readDelimited, readToks, if_pos rfl]
    have e0 : (w ++ (i ++ (text [] ++ tail))).dropWhile ws = i ++ tail := by
      rw [dropWhile_all w _ hw, dropWhile_head]
      · rfl
      · intro c hc
        apply hi.head c
        cases i with
        | nil => exact absurd rfl hi.ne
        | cons a i => exact hc
    have hd : ∀ c ∈ i, delimitedP ds c = true := fun c hc => delimitedP_iff.mpr (hi.delim c hc)
    have hth : ∀ c, tail.head? = some c → delimitedP ds c = false := by
      intro c hc
      rw [Bool.eq_false_iff, ne_eq, delimitedP_iff, not_not]
      exact ht c (List.mem_of_mem_head? hc)
    have e1 : readTok ws (delimitedP ds) ⟨w ++ (i ++ (text [] ++ tail)), true⟩ = (i, ⟨tail, !tail.isEmpty⟩) := by
      rw [readTok, if_pos rfl, e0, getLoop_eq, takeWhile_all i _ hd, dropWhile_all i _ hd, takeWhile_head tail hth,
        dropWhile_head tail hth, List.append_nil]
    rw [e1]
    have e2 : (readTok ws (allowedP ds) ⟨tail, !tail.isEmpty⟩).2.ok = false := by
      rw [readTok]
      cases tail with
      | nil => rfl
      | cons c tail =>
        rw [if_pos (show ({ rest := c :: tail, ok := !(c :: tail).isEmpty } : Stream).ok = true from rfl), getLoop_eq]
        have : ((c :: tail).dropWhile ws).dropWhile (allowedP ds) = [] := by
          obtain ⟨x', e, m, -⟩ := dropWhile_part (p := ws) (c :: tail) [] (by simp)
          rw [List.append_nil, List.append_nil] at e
          rw [e, ← List.append_nil x', dropWhile_all x' [] (fun c h => allowedP_iff.mpr (ht c (m c h)))]
          rfl
        change (!(((c :: tail).dropWhile ws).dropWhile (allowedP ds)).isEmpty) = false
        rw [this]
        rfl
    rw [if_neg (by rw [e2]; simp)]
    rfl
  | cons e l ih =>
    intro hl w i hw hi
    obtain ⟨⟨hs1, hs2⟩, hb, hit⟩ := hl e (by simp)
    rw [readDelimited, readToks, if_pos rfl]
    generalize hR : text (e :: l) ++ tail = R
    have hR' : R = e.sep ++ (e.blank ++ (e.item ++ (text l ++ tail))) := by
      rw [← hR, text_cons]; simp
    have e0 : (w ++ (i ++ R)).dropWhile ws = i ++ R := by
      rw [dropWhile_all w _ hw, dropWhile_head]
      intro c hc
      apply hi.head c
      cases i with
      | nil => exact absurd rfl hi.ne
      | cons a i => exact hc
    have hd : ∀ c ∈ i, delimitedP ds c = true := fun c hc => delimitedP_iff.mpr (hi.delim c hc)
    have hRh : ∀ c, R.head? = some c → delimitedP ds c = false := by
      intro c hc
      rw [Bool.eq_false_iff, ne_eq, delimitedP_iff, not_not]
      apply hs2 c
      rw [hR'] at hc
      cases h : e.sep with
      | nil => exact absurd h hs1
      | cons a s => rw [h] at hc; simp at hc; simp [hc]
    have hRne : R ≠ [] := by rw [hR']; simp [hs1]
    have e1 : readTok ws (delimitedP ds) ⟨w ++ (i ++ R), true⟩ = (i, ⟨R, true⟩) := by
      rw [readTok, if_pos rfl, e0, getLoop_eq, takeWhile_all i _ hd, dropWhile_all i _ hd, takeWhile_head R hRh,
        dropWhile_head R hRh, List.append_nil]
      have : R.isEmpty = false := by simp [hRne]
      rw [this]
      rfl
    rw [e1]
    have hih : ∀ c, (e.item ++ (text l ++ tail)).head? = some c → c ∈ e.item ∧ ws c = false := by
      intro c hc
      cases h : e.item with
      | nil => exact absurd h hit.ne
      | cons a s =>
        rw [h] at hc
        simp at hc
        subst hc
        exact ⟨by simp, hit.head _ (by rw [h]; rfl)⟩
    obtain ⟨w', hw', e2⟩ := sep_read ws (y := e.item ++ (text l ++ tail)) hs2 hb (fun c hc => (hih c hc).2) (fun c hc => by
      rw [Bool.eq_false_iff, ne_eq, allowedP_iff]
      exact hit.delim c (hih c hc).1)
    have e3 : (readTok ws (allowedP ds) ⟨R, true⟩).2 = ⟨w' ++ (e.item ++ (text l ++ tail)), true⟩ := by
      rw [readTok, if_pos rfl, getLoop_eq]
      change (⟨((R.dropWhile ws).dropWhile (allowedP ds)), _⟩ : Stream) = _
      rw [hR', e2]
      have : (w' ++ (e.item ++ (text l ++ tail))).isEmpty = false := by simp [hit.ne]
      rw [this]
      rfl
    have hlen : (w' ++ (e.item ++ (text l ++ tail))).length < (w ++ (i ++ R)).length := by
      have hle : (w' ++ (e.item ++ (text l ++ tail))).length ≤ R.length := by
        rw [← e2, ← hR']
        exact le_trans (List.length_dropWhile_le _ _) (List.length_dropWhile_le _ _)
      have := List.length_pos_iff.mpr hi.ne
      simp only [List.length_append] at hle ⊢
      omega
    have ih' := ih (fun e he => hl e (by simp [he])) w' e.item hw' hit
    rw [readDelimited] at ih'
    simp only
    rw [e3, if_pos rfl, dif_pos hlen, ih']
    rfl

/-- **C127**: a text of items, separated by one or more delimiters and white space, and perhaps followed by delimiters, is
read as exactly these items, in order. -/
theorem C127_split (ws : Char → Bool) (ds : List Char) (w i tail : List Char) (l : List Entry) (hw : Blank ws w)
    (hi : Item ws ds i) (hl : ∀ e ∈ l, Sep ds e.sep ∧ Blank ws e.blank ∧ Item ws ds e.item) (ht : ∀ c ∈ tail, c ∈ ds) :
    readDelimited ws ds (w ++ (i ++ (text l ++ tail))) = some (i :: l.map Entry.item) :=
  split_aux ws ds tail ht l hl w i hw hi

/-- **C127**: joining items with a delimiter and reading them gives the items back. -/
theorem C127_round_trip (ws : Char → Bool) (ds : List Char) (d : Char) (hd : d ∈ ds) (items : List (List Char)) (hne : items ≠ [])
    (h : ∀ i ∈ items, Item ws ds i) : readDelimited ws ds (List.intercalate [d] items) = some items := by
  cases items with
  | nil => exact absurd rfl hne
  | cons i items =>
    have e : List.intercalate [d] (i :: items) = [] ++ (i ++ (text (items.map fun x => ⟨[d], [], x⟩) ++ [])) := by
      rw [List.append_nil, List.nil_append]
      clear h hne
      induction items generalizing i with
      | nil => simp [List.intercalate, text]
      | cons j items ih =>
        have h1 : List.intercalate [d] (i :: j :: items) = i ++ ([d] ++ List.intercalate [d] (j :: items)) := by
          simp [List.intercalate]
        rw [h1, ih, List.map_cons, text_cons]
        simp
    rw [e, C127_split ws ds [] i [] _ (by simp [Blank]) (h i (by simp)) ?_ (by simp)]
    · rw [List.map_map]
      exact congrArg (fun q => some (i :: q)) (List.map_id items)
    · intro e he
      obtain ⟨x, hx, rfl⟩ := List.mem_map.mp he
      exact ⟨⟨by simp, by simp [hd]⟩, by simp [Blank], h x (by simp [hx])⟩

theorem total_aux (ws P : Char → Bool) : ∀ (n : Nat) (s : List Char), s.length ≤ n →
    ∃ ts, readToks ws P (notP P) ⟨s, true⟩ = some ts ∧ ts ≠ [] ∧
      (∀ t ∈ ts, (∀ c ∈ t, P c = true) ∧ ∀ c, t.head? = some c → ws c = false) ∧
      ts.flatten.filter (fun c => P c && !ws c) = s.filter (fun c => P c && !ws c) := by
  intro n
  induction n with
  | zero =>
    intro s hs
    have : s = [] := List.eq_nil_of_length_eq_zero (by omega)
    subst this
    refine ⟨[[]], ?_, by simp, by simp, rfl⟩
    rw [readToks, if_pos rfl]
    rfl
  | succ n ih =>
    intro s hs
    set s1 := s.dropWhile ws with hs1
    set t := s1.takeWhile P with ht
    set r1 := s1.dropWhile P with hr1
    have e1 : readTok ws P ⟨s, true⟩ = (t, ⟨r1, !r1.isEmpty⟩) := by
      rw [readTok, if_pos rfl, getLoop_eq]
    have ft : ∀ c ∈ t, P c = true := fun c hc => List.mem_takeWhile_imp hc
    have fh : ∀ c, t.head? = some c → ws c = false := by
      intro c hc
      have hh : ∀ q : List Char, (q.takeWhile P).head? = some c → q.head? = some c := by
        intro q
        cases q with
        | nil => simp
        | cons a q => by_cases h : P a = true <;> simp [List.takeWhile_cons, h]
      have : s1.head? = some c := hh s1 hc
      have := List.head?_dropWhile_not ws s
      rw [← hs1] at this
      simp_all
    have fs : s.filter (fun c => P c && !ws c) = t.filter (fun c => P c && !ws c) ++ r1.filter (fun c => P c && !ws c) := by
      conv_lhs => rw [← List.takeWhile_append_dropWhile (p := ws) (l := s), ← hs1, ← List.takeWhile_append_dropWhile (p := P) (l := s1), ← ht, ← hr1]
      rw [List.filter_append, List.filter_append]
      have : (s.takeWhile ws).filter (fun c => P c && !ws c) = [] := by
        rw [List.filter_eq_nil_iff]
        intro c hc
        simp [List.mem_takeWhile_imp hc]
      rw [this, List.nil_append]
    rw [readToks, if_pos rfl, e1]
    simp only
    by_cases hr : r1 = []
    · have e2 : (readTok ws (notP P) ⟨r1, !r1.isEmpty⟩).2.ok = false := by rw [hr]; rfl
      rw [if_neg (by rw [e2]; simp)]
      refine ⟨[t], rfl, by simp, fun x hx => ?_, ?_⟩
      · rw [List.mem_singleton] at hx; subst hx; exact ⟨ft, fh⟩
      · rw [fs, hr]; simp
    · set r2 := (r1.dropWhile ws).dropWhile (notP P) with hr2
      have e2 : (readTok ws (notP P) ⟨r1, !r1.isEmpty⟩).2 = ⟨r2, !r2.isEmpty⟩ := by
        have : r1.isEmpty = false := by simp [hr]
        rw [this, Bool.not_false, readTok, if_pos rfl, getLoop_eq]
      have f2 : r1.filter (fun c => P c && !ws c) = r2.filter (fun c => P c && !ws c) := by
        conv_lhs => rw [← List.takeWhile_append_dropWhile (p := ws) (l := r1), ← List.takeWhile_append_dropWhile (p := notP P) (l := r1.dropWhile ws), ← hr2]
        rw [List.filter_append, List.filter_append]
        have a : (r1.takeWhile ws).filter (fun c => P c && !ws c) = [] := by
          rw [List.filter_eq_nil_iff]; intro c hc; simp [List.mem_takeWhile_imp hc]
        have b : ((r1.dropWhile ws).takeWhile (notP P)).filter (fun c => P c && !ws c) = [] := by
          rw [List.filter_eq_nil_iff]; intro c hc
          have := List.mem_takeWhile_imp hc
          simp [notP] at this
          simp [this]
        rw [a, b, List.nil_append, List.nil_append]
      rw [e2]
      by_cases h2 : r2 = []
      · rw [h2, if_neg (by simp)]
        refine ⟨[t], rfl, by simp, fun x hx => ?_, ?_⟩
        · rw [List.mem_singleton] at hx; subst hx; exact ⟨ft, fh⟩
        · rw [fs, f2, h2]; simp
      · have hok : (!r2.isEmpty) = true := by simp [h2]
        have hle1 : r1.length ≤ s.length := le_trans (List.length_dropWhile_le _ _) (List.length_dropWhile_le _ _)
        have hlt : r2.length < s.length := by
          refine lt_of_lt_of_le ?_ hle1
          -- the first character of `r1` is white space or a delimiter
          obtain ⟨c, q, hq⟩ := List.exists_cons_of_ne_nil hr
          have hc : P c = false := by
            have := List.head?_dropWhile_not P s1
            rw [← hr1, hq] at this
            simpa using this
          rw [hr2, hq]
          by_cases hw : ws c = true
          · rw [List.dropWhile_cons_of_pos hw]
            exact lt_of_le_of_lt (le_trans (List.length_dropWhile_le _ _) (List.length_dropWhile_le _ _)) (by simp)
          · rw [List.dropWhile_cons_of_neg hw, List.dropWhile_cons_of_pos (by simp [notP, hc])]
            exact lt_of_le_of_lt (List.length_dropWhile_le _ _) (by simp)
        rw [if_pos hok, dif_pos hlt, hok]
        obtain ⟨ts, k1, k2, k3, k4⟩ := ih r2 (by omega)
        rw [k1]
        refine ⟨t :: ts, rfl, by simp, fun x hx => ?_, ?_⟩
        · rcases List.mem_cons.mp hx with rfl | hx
          · exact ⟨ft, fh⟩
          · exact k3 x hx
        · rw [List.flatten_cons, List.filter_append, k4, fs, f2]

/-- **C127**: every text is read to its end, into at least one token; the tokens consist of allowed characters, do not begin
with white space, and together they have all the allowed characters of the text but white space, in order. -/
theorem C127_total (ws P : Char → Bool) (s : List Char) :
    ∃ ts, readAllowed ws P s = some ts ∧ ts ≠ [] ∧
      (∀ t ∈ ts, (∀ c ∈ t, P c = true) ∧ ∀ c, t.head? = some c → ws c = false) ∧
      ts.flatten.filter (fun c => P c && !ws c) = s.filter (fun c => P c && !ws c) :=
  total_aux ws P s.length s le_rfl

/-- **C127**: the same for delimited tokens. -/
theorem C127_total_delimited (ws : Char → Bool) (ds s : List Char) :
    ∃ ts, readDelimited ws ds s = some ts ∧ ts ≠ [] ∧
      (∀ t ∈ ts, (∀ c ∈ t, c ∉ ds) ∧ ∀ c, t.head? = some c → ws c = false) ∧
      ts.flatten.filter (fun c => decide (c ∉ ds) && !ws c) = s.filter (fun c => decide (c ∉ ds) && !ws c) := by
  obtain ⟨ts, h1, h2, h3, h4⟩ := total_aux ws (delimitedP ds) s.length s le_rfl
  have e : delimitedP ds = fun c => decide (c ∉ ds) := by
    funext c
    rw [Bool.eq_iff_iff, delimitedP_iff, decide_eq_true_iff]
  refine ⟨ts, ?_, h2, fun t ht => ⟨fun c hc => delimitedP_iff.mp ((h3 t ht).1 c hc), (h3 t ht).2⟩, ?_⟩
  · rw [readDelimited, allowedP_eq]; exact h1
  · rw [e] at h4; exact h4

/-- **C127**: `unbox_tokens` converts the tokens one by one. -/
theorem C127_unbox {T : Type} (f : List Char → T) (ts : List (List Char)) : unbox f ts = ts.map f := by
  have : ∀ acc : List T, ts.foldl (fun vt t => vt ++ [f t]) acc = acc ++ ts.map f := by
    induction ts with
    | nil => intro acc; simp
    | cons t ts ih => intro acc; rw [List.foldl_cons, ih, List.map_cons]; simp
  rw [unbox, this, List.nil_append]

/-- **C127**: from a stream that has already failed nothing is read: no tokens, and the stream is as it was. -/
theorem C127_failed (ws P D : Char → Bool) (s : List Char) : readToks ws P D ⟨s, false⟩ = some [] ∧ readTok ws P ⟨s, false⟩ = ([], ⟨s, false⟩) := by
  refine ⟨?_, ?_⟩
  · rw [readToks, if_neg (by simp)]
  · rw [readTok, if_neg (by simp)]

/-- **C127** (negative): at a character neither the token nor the delimiter accepts, reading goes on for ever. -/
theorem C127_diverge (ws : Char → Bool) (hw : ws '#' = false) (s : List Char) :
    readToks ws (fun c => c == 'a') (fun c => c == ',') ⟨'#' :: s, true⟩ = none := by
  rw [readToks]
  simp [readTok, getLoop, hw, List.dropWhile]

/-- **C127** (negative): empty fields are lost, white space after the last delimiter makes an empty token, and an empty text
has one. -/
theorem C127_empty_fields :
    readDelimited (· == ' ') [','] "a,,b".toList = some ["a".toList, "b".toList] ∧
    readDelimited (· == ' ') [','] "a,".toList = some ["a".toList] ∧
    readDelimited (· == ' ') [','] "a, ".toList = some ["a".toList, []] ∧
    readDelimited (· == ' ') [','] [] = some [[]] := by decide +kernel

example : readDelimited (· == ' ') [','] " ab, c d ,,e,".toList = some ["ab".toList, "c d ".toList, "e".toList] := by decide +kernel
example : Item (· == ' ') [','] "c d ".toList := ⟨by decide, by decide, by decide⟩

end Altruct.Tokenizer
