/-
C134: what is printed for nested containers determines the value.
-/
import Verif.Output.Model
import Mathlib.Data.Nat.Digits.Defs
import Mathlib.Data.List.Basic

namespace Altruct.Output

/-! ### Specification -/

/-- The elements are printed differently when they are different, as at least one character, and none of them is a comma or a brace. -/
structure Plain {B : Type} (f : B → List Char) : Prop where
  inj : ∀ x y, f x = f y → x = y
  ne : ∀ x, f x ≠ []
  chars : ∀ x, ∀ c ∈ f x, c ≠ ',' ∧ c ≠ '{' ∧ c ≠ '}'

/-- The text of a container: the elements with `", "` between them, in braces. -/
def text {α : Type} (f : α → List Char) (l : List α) : List Char := '{' :: (List.intercalate [',', ' '] (l.map f) ++ ['}'])

/-! ### The loop -/

/-- The elements after the first. -/
def rest {α : Type} (f : α → List Char) (d : List Char) (l : List α) : List Char := (l.map (fun x => d ++ f x)).flatten

theorem outLoop_false {α : Type} (f : α → List Char) (d : List Char) : ∀ (l : List α) (os : List Char), outLoop f d l false os = os ++ rest f d l := by
  intro l
  induction l with
  | nil => intro os; simp [outLoop, rest]
  | cons x l ih => intro os; rw [outLoop, ih]; simp [rest]

theorem outVec_eq {α : Type} (f : α → List Char) (l : List α) (os : List Char) :
    outVec f l os = os ++ '{' :: (match l with | [] => [] | x :: l => f x ++ rest f [',', ' '] l) ++ ['}'] := by
  cases l with
  | nil => simp [outVec, outputContainer, outLoop]
  | cons x l => rw [outVec, outputContainer, outLoop, outLoop_false]; simp

theorem intercalate_eq {α : Type} (f : α → List Char) (d : List Char) : ∀ (l : List α) (x : α), List.intercalate d ((x :: l).map f) = f x ++ rest f d l := by
  intro l
  induction l with
  | nil => intro x; simp [rest, List.intercalate]
  | cons y l ih =>
    intro x
    have := ih y
    simp only [List.map_cons, List.intercalate, List.intersperse, List.flatten_cons] at this ⊢
    rw [this]
    simp [rest]

/-- **C134**: a container is printed as its elements with `", "` between them, in braces, after what the stream has. -/
theorem C134_container {α : Type} (f : α → List Char) (l : List α) (os : List Char) : outVec f l os = os ++ text f l := by
  rw [outVec_eq, text]
  cases l with
  | nil => simp [List.intercalate]
  | cons x l => rw [intercalate_eq]; simp

/-! ### Reading back -/

/-- What may follow a value. -/
def Stop (s : List Char) : Prop := ∀ c l, s = c :: l → c = ',' ∨ c = '}'

structure Dec {α : Type} (f : α → List Char) : Prop where
  dec : ∀ a b s t, Stop s → Stop t → f a ++ s = f b ++ t → a = b ∧ s = t
  head : ∀ a, ∃ c l, f a = c :: l ∧ c ≠ ',' ∧ c ≠ '}'

theorem plain_split : ∀ (u v s t : List Char), (∀ c ∈ u, c ≠ ',' ∧ c ≠ '{' ∧ c ≠ '}') → (∀ c ∈ v, c ≠ ',' ∧ c ≠ '{' ∧ c ≠ '}') → Stop s → Stop t → u ++ s = v ++ t → u = v ∧ s = t := by
  intro u
  induction u with
  | nil =>
    intro v s t _ hv hs _ h
    cases v with
    | nil => exact ⟨rfl, by simpa using h⟩
    | cons c v =>
      have h1 := hs c (v ++ t) (by simpa using h)
      have h2 := hv c (by simp)
      rcases h1 with h1 | h1
      · exact absurd h1 h2.1
      · exact absurd h1 h2.2.2
  | cons a u ih =>
    intro v s t hu hv hs ht h
    cases v with
    | nil =>
      have h1 := ht a (u ++ s) (by simpa using h.symm)
      have h2 := hu a (by simp)
      rcases h1 with h1 | h1
      · exact absurd h1 h2.1
      · exact absurd h1 h2.2.2
    | cons c v =>
      simp only [List.cons_append, List.cons.injEq] at h
      obtain ⟨h1, h2⟩ := ih v s t (fun x hx => hu x (by simp [hx])) (fun x hx => hv x (by simp [hx])) hs ht h.2
      exact ⟨by rw [h.1, h1], h2⟩

theorem Plain.toDec {B : Type} {f : B → List Char} (h : Plain f) : Dec f where
  dec a b s t hs ht he := by
    obtain ⟨h1, h2⟩ := plain_split _ _ s t (h.chars a) (h.chars b) hs ht he
    exact ⟨h.inj a b h1, h2⟩
  head a := by
    match hf : f a with
    | [] => exact absurd hf (h.ne a)
    | c :: l =>
      have := h.chars a c (by rw [hf]; simp)
      exact ⟨c, l, rfl, this.1, this.2.2⟩

theorem stop_brace (s : List Char) : Stop ('}' :: s) := fun c l h => by simp only [List.cons.injEq] at h; exact Or.inr h.1.symm
theorem stop_comma (s : List Char) : Stop (',' :: s) := fun c l h => by simp only [List.cons.injEq] at h; exact Or.inl h.1.symm

theorem stop_rest {α : Type} (f : α → List Char) (l : List α) (s : List Char) : Stop (rest f [',', ' '] l ++ '}' :: s) := by
  cases l with
  | nil => exact stop_brace s
  | cons x l => simp only [rest, List.map_cons, List.flatten_cons, List.cons_append]; exact stop_comma _

theorem rest_dec {α : Type} {f : α → List Char} (h : Dec f) : ∀ (l l' : List α) (s t : List Char), rest f [',', ' '] l ++ '}' :: s = rest f [',', ' '] l' ++ '}' :: t → l = l' ∧ s = t := by
  intro l
  induction l with
  | nil =>
    intro l' s t he
    cases l' with
    | nil => exact ⟨rfl, by simpa [rest] using he⟩
    | cons y l' => simp [rest] at he
  | cons x l ih =>
    intro l' s t he
    cases l' with
    | nil => simp [rest] at he
    | cons y l' =>
      have e1 : ∀ (z : α) (k : List α) (r : List Char), rest f [',', ' '] (z :: k) ++ r = ',' :: ' ' :: (f z ++ (rest f [',', ' '] k ++ r)) := by
        intro z k r; simp [rest]
      rw [e1, e1] at he
      simp only [List.cons.injEq, true_and] at he
      obtain ⟨h1, h2⟩ := h.dec x y _ _ (stop_rest f l s) (stop_rest f l' t) he
      obtain ⟨h3, h4⟩ := ih l' s t h2
      exact ⟨by rw [h1, h3], h4⟩

theorem Dec.vec {α : Type} {f : α → List Char} (h : Dec f) : Dec (fun l => outVec f l []) where
  dec a b s t _ _ he := by
    simp only [outVec_eq] at he
    have hne : ∀ (x : α) (r s : List Char), f x ++ r ≠ '}' :: s := by
      intro x r s hc
      obtain ⟨c, l, h1, _, h3⟩ := h.head x
      rw [h1] at hc
      simp only [List.cons_append, List.cons.injEq] at hc
      exact h3 hc.1
    cases a with
    | nil =>
      cases b with
      | nil => exact ⟨rfl, by simpa using he⟩
      | cons y b =>
        simp only [List.nil_append, List.cons_append, List.append_assoc, List.cons.injEq, true_and] at he
        exact absurd he.symm (hne y _ _)
    | cons x a =>
      cases b with
      | nil =>
        simp only [List.nil_append, List.cons_append, List.append_assoc, List.cons.injEq, true_and] at he
        exact absurd he (hne x _ _)
      | cons y b =>
        simp only [List.nil_append, List.cons_append, List.append_assoc, List.cons.injEq, true_and] at he
        obtain ⟨h1, h2⟩ := h.dec x y _ _ (stop_rest f a s) (stop_rest f b t) he
        obtain ⟨h3, h4⟩ := rest_dec h a b s t h2
        exact ⟨by rw [h1, h3], h4⟩
  head a := ⟨'{', _, by rw [outVec_eq]; rfl, by decide, by decide⟩

theorem Dec.pair {α β : Type} {f : α → List Char} {g : β → List Char} (hf : Dec f) (hg : Dec g) : Dec (fun p => outPair f g p []) where
  dec a b s t _ _ he := by
    obtain ⟨a1, a2⟩ := a
    obtain ⟨b1, b2⟩ := b
    simp only [outPair, List.nil_append, List.cons_append, List.append_assoc, List.cons.injEq, true_and] at he
    obtain ⟨h1, h2⟩ := hf.dec a1 b1 _ _ (stop_comma _) (stop_comma _) he
    simp only [List.cons.injEq, true_and] at h2
    obtain ⟨h3, h4⟩ := hg.dec a2 b2 _ _ (stop_brace _) (stop_brace _) h2
    exact ⟨by rw [h1, h3], by simpa using h4⟩
  head a := ⟨'{', _, rfl, by decide, by decide⟩

theorem Dec.triple {α : Type} {f : α → List Char} (hf : Dec f) : Dec (fun p => outTriple f p []) where
  dec a b s t _ _ he := by
    obtain ⟨a1, a2, a3⟩ := a
    obtain ⟨b1, b2, b3⟩ := b
    simp only [outTriple, List.nil_append, List.cons_append, List.append_assoc, List.cons.injEq, true_and] at he
    obtain ⟨h1, h2⟩ := hf.dec a1 b1 _ _ (stop_comma _) (stop_comma _) he
    simp only [List.cons.injEq, true_and] at h2
    obtain ⟨h3, h4⟩ := hf.dec a2 b2 _ _ (stop_comma _) (stop_comma _) h2
    simp only [List.cons.injEq, true_and] at h4
    obtain ⟨h5, h6⟩ := hf.dec a3 b3 _ _ (stop_brace _) (stop_brace _) h4
    exact ⟨by rw [h1, h3, h5], by simpa using h6⟩
  head a := ⟨'{', _, rfl, by decide, by decide⟩

theorem out_dec {B : Type} {f : B → List Char} (h : Plain f) : ∀ t : Ty, Dec (out f t) := by
  intro t
  induction t with
  | base => exact h.toDec
  | vec t ih => exact ih.vec
  | pair a b iha ihb => exact iha.pair ihb
  | triple t ih => exact ih.triple

/-- **C134**: values of any type built from containers, pairs and triples over numbers are printed alike only if they are equal. -/
theorem C134_injective {B : Type} {f : B → List Char} (h : Plain f) (t : Ty) (x y : Val B t) (he : out f t x = out f t y) : x = y :=
  ((out_dec h t).dec x y [] [] (fun _ _ h => by cases h) (fun _ _ h => by cases h) (by rw [he])).1

/-- **C134** (negative): the elements must not contain commas: a vector of one string and a vector of two strings are printed alike. -/
theorem C134_strings : outVec (fun s : List Char => s) [['a', ',', ' ', 'b']] [] = outVec (fun s : List Char => s) [['a'], ['b']] [] := by decide

/-! ### The hypothesis is met by the numbers -/

/-- Decimal notation of a natural number. -/
def decNat (n : Nat) : List Char := if n = 0 then ['0'] else ((Nat.digits 10 n).map Nat.digitChar).reverse

theorem digitChar_plain : ∀ d < 10, Nat.digitChar d ≠ ',' ∧ Nat.digitChar d ≠ '{' ∧ Nat.digitChar d ≠ '}' := by decide
theorem digitChar_inj : ∀ d < 10, ∀ e < 10, Nat.digitChar d = Nat.digitChar e → d = e := by decide

theorem map_inj : ∀ (l l' : List Nat), (∀ d ∈ l, d < 10) → (∀ d ∈ l', d < 10) → l.map Nat.digitChar = l'.map Nat.digitChar → l = l' := by
  intro l
  induction l with
  | nil => intro l' _ _ h; cases l' with
    | nil => rfl
    | cons a l' => simp at h
  | cons a l ih => intro l' h1 h2 h; cases l' with
    | nil => simp at h
    | cons b l' =>
      simp only [List.map_cons, List.cons.injEq] at h
      rw [digitChar_inj a (h1 a (by simp)) b (h2 b (by simp)) h.1, ih l' (fun d hd => h1 d (by simp [hd])) (fun d hd => h2 d (by simp [hd])) h.2]

theorem decNat_eq (n : Nat) : ∃ l : List Nat, (∀ d ∈ l, d < 10) ∧ l ≠ [] ∧ Nat.ofDigits 10 l = n ∧ decNat n = (l.map Nat.digitChar).reverse ∧ (l = [0] ∨ l = Nat.digits 10 n) := by
  by_cases h : n = 0
  · exact ⟨[0], by simp, by simp, by simp [h], by rw [decNat, if_pos h]; rfl, Or.inl rfl⟩
  · exact ⟨Nat.digits 10 n, fun d hd => Nat.digits_lt_base (by omega) hd, Nat.digits_ne_nil_iff_ne_zero.mpr h, Nat.ofDigits_digits 10 n, by rw [decNat, if_neg h], Or.inr rfl⟩

/-- The natural numbers in decimal notation are printed as `Plain` asks. -/
theorem C134_decimal : Plain decNat where
  inj x y h := by
    obtain ⟨l, h1, _, h3, h4, _⟩ := decNat_eq x
    obtain ⟨l', k1, _, k3, k4, _⟩ := decNat_eq y
    rw [h4, k4, List.reverse_inj] at h
    rw [← h3, ← k3, map_inj l l' h1 k1 h]
  ne x := by
    obtain ⟨l, _, h2, _, h4, _⟩ := decNat_eq x
    rw [h4]
    simpa using h2
  chars x c hc := by
    obtain ⟨l, h1, _, _, h4, _⟩ := decNat_eq x
    rw [h4, List.mem_reverse, List.mem_map] at hc
    obtain ⟨d, hd, rfl⟩ := hc
    exact digitChar_plain d (h1 d hd)

/-- Decimal notation of an integer. -/
def decInt (z : Int) : List Char := if z < 0 then '-' :: decNat z.natAbs else decNat z.natAbs

theorem decNat_no_minus (n : Nat) : '-' ∉ decNat n := by
  obtain ⟨l, h1, _, _, h4, _⟩ := decNat_eq n
  rw [h4, List.mem_reverse, List.mem_map]
  rintro ⟨d, hd, h⟩
  exact (show ∀ d < 10, Nat.digitChar d ≠ '-' by decide) d (h1 d hd) h

/-- So are the integers. -/
theorem C134_integers : Plain decInt where
  inj x y h := by
    unfold decInt at h
    split at h <;> split at h
    · have := C134_decimal.inj _ _ (List.cons.inj h).2
      omega
    · exact absurd (h ▸ List.mem_cons_self) (decNat_no_minus y.natAbs)
    · exact absurd (h ▸ List.mem_cons_self) (decNat_no_minus x.natAbs)
    · have := C134_decimal.inj _ _ h
      omega
  ne x := by
    unfold decInt
    split
    · simp
    · exact C134_decimal.ne _
  chars x c hc := by
    unfold decInt at hc
    split at hc
    · rcases List.mem_cons.mp hc with rfl | hc
      · decide
      · exact C134_decimal.chars _ c hc
    · exact C134_decimal.chars _ c hc

/-- Vectors of pairs of an integer and a vector of integers, for instance. -/
example (x y : List (Int × List Int)) (h : out decInt (.vec (.pair .base (.vec .base))) x = out decInt (.vec (.pair .base (.vec .base))) y) : x = y :=
  C134_injective C134_integers (.vec (.pair .base (.vec .base))) x y h

example : String.ofList (out (fun b : Bool => if b then ['1'] else ['0']) (.vec (.pair .base (.vec .base))) [(true, []), (false, [true, false])]) = "{{1, {}}, {0, {1, 0}}}" := by decide +kernel

/-! ### Fractions and residues -/

theorem split_at (c : Char) : ∀ (a a' b b' : List Char), c ∉ a → c ∉ a' → a ++ c :: b = a' ++ c :: b' → a = a' ∧ b = b' := by
  intro a
  induction a with
  | nil =>
    intro a' b b' _ h' h
    cases a' with
    | nil => exact ⟨rfl, by simpa using h⟩
    | cons x a' =>
      simp only [List.nil_append, List.cons_append, List.cons.injEq] at h
      exact absurd h.1 (fun hc => h' (by simp [hc]))
  | cons x a ih =>
    intro a' b b' h1 h' h
    cases a' with
    | nil =>
      simp only [List.nil_append, List.cons_append, List.cons.injEq] at h
      exact absurd h.1 (fun hc => h1 (by simp [hc]))
    | cons y a' =>
      simp only [List.cons_append, List.cons.injEq] at h
      obtain ⟨h2, h3⟩ := ih a' b b' (fun hc => h1 (by simp [hc])) (fun hc => h' (by simp [hc])) h.2
      exact ⟨by rw [h.1, h2], h3⟩

theorem decInt_free (z : Int) (c : Char) (hc : c ∈ decInt z) : c ≠ '/' ∧ c ≠ ' ' := by
  have h : ∀ n, ∀ c ∈ decNat n, c ≠ '/' ∧ c ≠ ' ' := by
    intro n c hc
    obtain ⟨l, h1, _, _, h4, _⟩ := decNat_eq n
    rw [h4, List.mem_reverse, List.mem_map] at hc
    obtain ⟨d, hd, rfl⟩ := hc
    exact (show ∀ d < 10, Nat.digitChar d ≠ '/' ∧ Nat.digitChar d ≠ ' ' by decide) d (h1 d hd)
  unfold decInt at hc
  split at hc
  · rcases List.mem_cons.mp hc with rfl | hc
    · decide
    · exact h _ c hc
  · exact h _ c hc

/-- **C134**: fractions over the integers, printed with a slash, have the property of elements, so C134_injective holds for containers of them. -/
theorem C134_fraction (always : Bool) : Plain (outFraction decInt false always) where
  inj x y h := by
    obtain ⟨p, q⟩ := x
    obtain ⟨p', q'⟩ := y
    have hns : ∀ z, '/' ∉ decInt z := fun z hc => (decInt_free z '/' hc).1 rfl
    simp only [outFraction, Bool.false_eq_true, if_false, List.append_assoc, List.cons_append, List.nil_append] at h
    split at h <;> split at h
    · obtain ⟨h1, h2⟩ := split_at '/' _ _ _ _ (hns p) (hns p') h
      rw [C134_integers.inj _ _ h1, C134_integers.inj _ _ h2]
    · exact absurd (h ▸ (by simp : '/' ∈ decInt p ++ '/' :: decInt q)) (hns p')
    · exact absurd (h.symm ▸ (by simp : '/' ∈ decInt p' ++ '/' :: decInt q')) (hns p)
    · rename_i c1 c2
      simp only [Bool.or_eq_true, Bool.not_eq_true', beq_eq_false_iff_ne, not_or, not_not] at c1 c2
      rw [C134_integers.inj _ _ h, c1.2, c2.2]
  ne x := by
    simp only [outFraction, Bool.false_eq_true, if_false]
    split
    · simp
    · exact C134_integers.ne _
  chars x c hc := by
    simp only [outFraction, Bool.false_eq_true, if_false] at hc
    split at hc
    · simp only [List.append_assoc, List.mem_append, List.mem_singleton] at hc
      rcases hc with hc | rfl | hc
      · exact C134_integers.chars _ c hc
      · decide
      · exact C134_integers.chars _ c hc
    · exact C134_integers.chars _ c hc

/-- **C134**: so have residues printed with their modulus. -/
theorem C134_modulo : Plain (outModulo decInt false true) where
  inj x y h := by
    have hns : ∀ z, ' ' ∉ decInt z := fun z hc => (decInt_free z ' ' hc).2 rfl
    simp only [outModulo, Bool.false_eq_true, if_false, if_true, List.append_assoc, List.cons_append, List.nil_append] at h
    obtain ⟨h1, h2⟩ := split_at ' ' _ _ _ _ (hns x.1) (hns y.1) h
    simp only [List.cons.injEq, true_and] at h2
    exact Prod.ext (C134_integers.inj _ _ h1) (C134_integers.inj _ _ (List.append_cancel_right h2))
  ne x := by simp [outModulo]
  chars x c hc := by
    simp only [outModulo, Bool.false_eq_true, if_false, if_true, List.append_assoc, List.mem_append] at hc
    rcases hc with hc | hc | hc | hc
    · exact C134_integers.chars _ c hc
    · exact (show ∀ c ∈ [' ', '(', 'm', 'o', 'd', ' '], c ≠ ',' ∧ c ≠ '{' ∧ c ≠ '}' by decide) c hc
    · exact C134_integers.chars _ c hc
    · exact (show ∀ c ∈ [')'], c ≠ ',' ∧ c ≠ '{' ∧ c ≠ '}' by decide) c hc

/-- **C134**: printed as pairs, fractions and residues are told apart as well. -/
theorem C134_as_pair (flag : Bool) (x y : Int × Int) :
    (outFraction decInt true flag x = outFraction decInt true flag y → x = y) ∧ (outModulo decInt true flag x = outModulo decInt true flag y → x = y) :=
  ⟨fun h => C134_injective C134_integers (.pair .base .base) x y h, fun h => C134_injective C134_integers (.pair .base .base) x y h⟩

end Altruct.Output
