/-
C128: the string of a `symbolic` determines the expression that computed it.
-/
import Verif.Symbolic.Model
import Mathlib.Data.List.TakeWhile

namespace Altruct.Symbolic

/-! ### Specification -/

/-- The characters with a meaning in expressions. -/
def special : List Char := "()+-*/%&|^<>~!".toList

/-- A character of a name or a number. -/
def Word (c : Char) : Prop := c ∉ special

/-- A name or a number: one or more characters that are not special, after a `-` perhaps. -/
def Atom (s : List Char) : Prop := ∃ b : List Char, b ≠ [] ∧ (∀ c ∈ b, Word c) ∧ (s = b ∨ s = '-' :: b)

/-- What a program computes: an expression over names and numbers; an assignment `x op= y` makes a new value. -/
inductive Expr where
  | atom (s : List Char)
  | un (op : UnOp) (a : Expr)
  | bin (op : BinOp) (a b : Expr)
  | assign (op : BinOp) (a b : Expr)
deriving DecidableEq

/-- The expression without the difference between `x op y` and `x op= y`. -/
def Expr.plain : Expr → Expr
  | atom s => atom s
  | un op a => un op a.plain
  | bin op a b => bin op a.plain b.plain
  | assign op a b => bin op a.plain b.plain

/-- Its names and numbers are such. -/
def Expr.Ok : Expr → Prop
  | atom s => Atom s
  | un _ a => a.Ok
  | bin _ a b => a.Ok ∧ b.Ok
  | assign _ a b => a.Ok ∧ b.Ok

/-- The string computed. -/
def Expr.eval : Expr → List Char
  | atom s => s
  | un op a => Symbolic.un op a.eval
  | bin op a b => Symbolic.bin op a.eval b.eval
  | assign op a b => Symbolic.assign op a.eval b.eval

/-! ### Unique readability -/

/-- The text after an expression does not go on with a name. -/
def Stop (r : List Char) : Prop := ∀ c, r.head? = some c → c ∈ special

theorem words_unique {b b' r r' : List Char} (hb : ∀ c ∈ b, Word c) (hb' : ∀ c ∈ b', Word c) (hr : Stop r) (hr' : Stop r')
    (h : b ++ r = b' ++ r') : b = b' ∧ r = r' := by
  induction b generalizing b' with
  | nil =>
    cases b' with
    | nil => exact ⟨rfl, h⟩
    | cons c b' =>
      exfalso
      exact hb' c (by simp) (hr c (by rw [List.nil_append] at h; rw [h]; rfl))
  | cons c b ih =>
    cases b' with
    | nil =>
      exfalso
      exact hb c (by simp) (hr' c (by rw [List.nil_append] at h; rw [← h]; rfl))
    | cons c' b' =>
      rw [List.cons_append, List.cons_append, List.cons.injEq] at h
      obtain ⟨h1, h2⟩ := ih (fun c hc => hb c (by simp [hc])) (fun c hc => hb' c (by simp [hc])) h.2
      exact ⟨by rw [h.1, h1], h2⟩

theorem word_ne {c : Char} (h : Word c) {d : Char} (hd : d ∈ special) : c ≠ d := by
  rintro rfl; exact h hd

theorem atom_unique {s s' r r' : List Char} (hs : Atom s) (hs' : Atom s') (hr : Stop r) (hr' : Stop r') (h : s ++ r = s' ++ r') :
    s = s' ∧ r = r' := by
  obtain ⟨b, hb0, hb, e⟩ := hs
  obtain ⟨b', hb0', hb', e'⟩ := hs'
  obtain ⟨c, q, rfl⟩ := List.exists_cons_of_ne_nil hb0
  obtain ⟨c', q', rfl⟩ := List.exists_cons_of_ne_nil hb0'
  have hc := hb c (by simp)
  have hc' := hb' c' (by simp)
  rcases e with rfl | rfl <;> rcases e' with rfl | rfl
  · exact words_unique hb hb' hr hr' h
  · rw [List.cons_append, List.cons_append, List.cons.injEq] at h
    exact absurd h.1 (word_ne hc (by decide))
  · have h : ('-' :: (c :: q ++ r)) = c' :: (q' ++ r') := h
    rw [List.cons.injEq] at h
    exact absurd h.1.symm (word_ne hc' (by decide))
  · have h : ('-' :: (c :: q ++ r)) = '-' :: (c' :: q' ++ r') := h
    rw [List.cons.injEq] at h
    obtain ⟨h1, h2⟩ := words_unique hb hb' hr hr' h.2
    exact ⟨by rw [h1], h2⟩

/-- The first character of an expression. -/
theorem eval_head {e : Expr} (h : e.Ok) : ∃ c q, e.eval = c :: q ∧ (Word c ∨ c = '-' ∨ c = '(') := by
  cases e with
  | atom s =>
    obtain ⟨b, hb0, hb, e⟩ := h
    obtain ⟨c, q, rfl⟩ := List.exists_cons_of_ne_nil hb0
    rcases e with rfl | rfl
    · exact ⟨c, q, rfl, .inl (hb c (by simp))⟩
    · exact ⟨_, _, rfl, .inr (.inl rfl)⟩
  | un op a => exact ⟨_, _, rfl, .inr (.inr rfl)⟩
  | bin op a b => exact ⟨_, _, rfl, .inr (.inr rfl)⟩
  | assign op a b => exact ⟨_, _, rfl, .inr (.inr rfl)⟩

theorem stop_op (op : BinOp) (x : List Char) : Stop (op.str ++ x) := by
  intro c hc
  cases op <;> simp [BinOp.str] at hc <;> subst hc <;> decide

theorem stop_close (x : List Char) : Stop (')' :: x) := by
  intro c hc
  simp at hc; subst hc; decide

/-- What follows a binary operator does not go on with its characters. -/
theorem op_unique {op op' : BinOp} {c c' : Char} {q q' : List Char} (hc : Word c ∨ c = '-' ∨ c = '(')
    (hc' : Word c' ∨ c' = '-' ∨ c' = '(') (h : op.str ++ (c :: q) = op'.str ++ (c' :: q')) : op = op' ∧ c :: q = c' :: q' := by
  have k : ∀ c : Char, Word c ∨ c = '-' ∨ c = '(' → c ≠ '&' ∧ c ≠ '|' := by
    rintro c (h | rfl | rfl)
    · exact ⟨word_ne h (by decide), word_ne h (by decide)⟩
    · decide
    · decide
  have k1 := k c hc
  have k2 := k c' hc'
  cases op <;> cases op' <;> simp [BinOp.str] at h ⊢ <;> first | exact h | (exfalso; first | exact k1.1 h.1 | exact k1.2 h.1 | exact k2.1 h.1.symm | exact k2.2 h.1.symm)

/-- A unary expression is not read as a binary one. -/
theorem un_ne_bin {op : UnOp} {op' : BinOp} {a a' : Expr} (ha : a.Ok) (ha' : a'.Ok) (x r : List Char)
    (h : op.chr :: (a.eval ++ ')' :: r) = a'.eval ++ (op'.str ++ x)) : False := by
  have hop : op.chr ∈ special ∧ op.chr ≠ '(' := by cases op <;> decide
  cases a' with
  | un o b => rw [Expr.eval, Symbolic.un, List.cons_append, List.cons.injEq] at h; exact hop.2 h.1
  | bin o b c => rw [Expr.eval, Symbolic.bin, List.cons_append, List.cons.injEq] at h; exact hop.2 h.1
  | assign o b c => rw [Expr.eval, assign, Symbolic.bin, List.cons_append, List.cons.injEq] at h; exact hop.2 h.1
  | atom s' =>
    obtain ⟨b', hb0', hb', e'⟩ := ha'
    rw [Expr.eval] at h
    rcases e' with rfl | rfl
    · obtain ⟨c', q', rfl⟩ := List.exists_cons_of_ne_nil hb0'
      rw [List.cons_append, List.cons.injEq] at h
      exact word_ne (hb' c' (by simp)) hop.1 h.1.symm
    · rw [List.cons_append, List.cons.injEq] at h
      have h2 := h.2
      obtain ⟨c', q', rfl⟩ := List.exists_cons_of_ne_nil hb0'
      have hc' := hb' c' (by simp)
      -- the expression after the sign begins with a letter or digit, so it is a name or number
      have hh : ∀ s : List Char, s = a.eval → s ++ ')' :: r = c' :: q' ++ (op'.str ++ x) → Atom s → False := by
        intro s _ hs hat
        obtain ⟨-, e⟩ := atom_unique hat ⟨c' :: q', by simp, hb', .inl rfl⟩ (stop_close r) (stop_op op' x) hs
        cases op' <;> simp [BinOp.str] at e
      cases a with
      | atom s => exact hh s rfl h2 ha
      | un o b =>
        have h2 : '(' :: (o.chr :: (b.eval ++ [')']) ++ ')' :: r) = c' :: (q' ++ (op'.str ++ x)) := h2
        rw [List.cons.injEq] at h2
        exact word_ne hc' (by decide) h2.1.symm
      | bin o b c => rw [Expr.eval, Symbolic.bin, List.cons_append, List.cons_append, List.cons.injEq] at h2; exact word_ne hc' (by decide) h2.1.symm
      | assign o b c => rw [Expr.eval, assign, Symbolic.bin, List.cons_append, List.cons_append, List.cons.injEq] at h2; exact word_ne hc' (by decide) h2.1.symm

/-- Its plain form computes the same string. -/
theorem eval_plain (e : Expr) : e.plain.eval = e.eval := by
  induction e with
  | atom s => rfl
  | un op a ih => rw [Expr.plain, Expr.eval, Expr.eval, ih]
  | bin op a b iha ihb => rw [Expr.plain, Expr.eval, Expr.eval, iha, ihb]
  | assign op a b iha ihb => rw [Expr.plain, Expr.eval, Expr.eval, iha, ihb, assign]

theorem ok_plain {e : Expr} (h : e.Ok) : e.plain.Ok := by
  induction e with
  | atom s => exact h
  | un op a ih => exact ih h
  | bin op a b iha ihb => exact ⟨iha h.1, ihb h.2⟩
  | assign op a b iha ihb => exact ⟨iha h.1, ihb h.2⟩

theorem plain_plain (e : Expr) : e.plain.plain = e.plain := by
  induction e with
  | atom s => rfl
  | un op a ih => rw [Expr.plain, Expr.plain, ih]
  | bin op a b iha ihb => rw [Expr.plain, Expr.plain, iha, ihb]
  | assign op a b iha ihb => rw [Expr.plain, Expr.plain, iha, ihb]

theorem atom_ne_paren {s x y : List Char} (hs : Atom s) (h : s ++ x = '(' :: y) : False := by
  obtain ⟨b, hb0, hb, e⟩ := hs
  obtain ⟨c, q, rfl⟩ := List.exists_cons_of_ne_nil hb0
  rcases e with rfl | rfl
  · rw [List.cons_append, List.cons.injEq] at h
    exact word_ne (hb c (by simp)) (by decide) h.1
  · rw [List.cons_append, List.cons.injEq] at h
    exact absurd h.1 (by decide)

theorem readable : ∀ (e : Expr), e.plain = e → e.Ok → ∀ e' : Expr, e'.plain = e' → e'.Ok → ∀ r r', Stop r → Stop r' →
    e.eval ++ r = e'.eval ++ r' → e = e' ∧ r = r' := by
  intro e
  induction e with
  | atom s =>
    intro _ h e' hp' h' r r' hr hr' he
    cases e' with
    | atom s' =>
      obtain ⟨h1, h2⟩ := atom_unique h h' hr hr' he
      exact ⟨by rw [h1], h2⟩
    | un op' a' => exact (atom_ne_paren h he).elim
    | bin op' a' b' => exact (atom_ne_paren h he).elim
    | assign op' a' b' => exact (atom_ne_paren h he).elim
  | un op a ih =>
    intro hp h e' hp' h' r r' hr hr' he
    have e1 : (Expr.un op a).eval ++ r = '(' :: op.chr :: (a.eval ++ ')' :: r) := by simp [Expr.eval, Symbolic.un]
    rw [e1] at he
    cases e' with
    | atom s' => exact (atom_ne_paren h' he.symm).elim
    | un op' a' =>
      have e2 : (Expr.un op' a').eval ++ r' = '(' :: op'.chr :: (a'.eval ++ ')' :: r') := by simp [Expr.eval, Symbolic.un]
      rw [e2, List.cons.injEq, List.cons.injEq] at he
      rw [Expr.plain, Expr.un.injEq] at hp hp'
      obtain ⟨h1, h2⟩ := ih hp.2 h a' hp'.2 h' _ _ (stop_close r) (stop_close r') he.2.2
      have ho : op = op' := by
        have := he.2.1
        cases op <;> cases op' <;> first | rfl | (exact absurd this (by decide))
      exact ⟨by rw [ho, h1], by rw [List.cons.injEq] at h2; exact h2.2⟩
    | bin op' a' b' =>
      have e2 : (Expr.bin op' a' b').eval ++ r' = '(' :: (a'.eval ++ (op'.str ++ (b'.eval ++ ')' :: r'))) := by
        simp [Expr.eval, Symbolic.bin]
      rw [e2, List.cons.injEq] at he
      exact (un_ne_bin (show a.Ok from h) h'.1 _ _ he.2).elim
    | assign op' a' b' => rw [Expr.plain] at hp'; cases hp'
  | bin op a b iha ihb =>
    intro hp h e' hp' h' r r' hr hr' he
    have e1 : (Expr.bin op a b).eval ++ r = '(' :: (a.eval ++ (op.str ++ (b.eval ++ ')' :: r))) := by
      simp [Expr.eval, Symbolic.bin]
    rw [e1] at he
    cases e' with
    | atom s' => exact (atom_ne_paren h' he.symm).elim
    | un op' a' =>
      have e2 : (Expr.un op' a').eval ++ r' = '(' :: op'.chr :: (a'.eval ++ ')' :: r') := by simp [Expr.eval, Symbolic.un]
      rw [e2, List.cons.injEq] at he
      exact (un_ne_bin (show a'.Ok from h') h.1 _ _ he.2.symm).elim
    | bin op' a' b' =>
      have e2 : (Expr.bin op' a' b').eval ++ r' = '(' :: (a'.eval ++ (op'.str ++ (b'.eval ++ ')' :: r'))) := by
        simp [Expr.eval, Symbolic.bin]
      rw [e2, List.cons.injEq] at he
      rw [Expr.plain, Expr.bin.injEq] at hp hp'
      obtain ⟨h1, h2⟩ := iha hp.2.1 h.1 a' hp'.2.1 h'.1 _ _ (stop_op op _) (stop_op op' _) he.2
      obtain ⟨c, q, k1, k2⟩ := eval_head h.2
      obtain ⟨c', q', k1', k2'⟩ := eval_head h'.2
      rw [k1, k1', List.cons_append, List.cons_append] at h2
      obtain ⟨h3, h4⟩ := op_unique k2 k2' h2
      rw [← List.cons_append, ← List.cons_append, ← k1, ← k1'] at h4
      obtain ⟨h5, h6⟩ := ihb hp.2.2 h.2 b' hp'.2.2 h'.2 _ _ (stop_close r) (stop_close r') h4
      exact ⟨by rw [h1, h3, h5], by rw [List.cons.injEq] at h6; exact h6.2⟩
    | assign op' a' b' => rw [Expr.plain] at hp'; cases hp'
  | assign op a b iha ihb => intro hp; rw [Expr.plain] at hp; cases hp

/-- **C128**: two computations over names and numbers give the same string if and only if they apply the same operators to the
same operands in the same order (`x op= y` being `x op y`). -/
theorem C128_faithful (e e' : Expr) (h : e.Ok) (h' : e'.Ok) : e.eval = e'.eval ↔ e.plain = e'.plain := by
  constructor
  · intro he
    refine (readable e.plain (plain_plain e) (ok_plain h) e'.plain (plain_plain e') (ok_plain h') [] [] (by simp [Stop]) (by simp [Stop]) ?_).1
    rw [eval_plain, eval_plain, he]
  · intro he
    rw [← eval_plain e, ← eval_plain e', he]

theorem repr_word (n : Nat) : (toString n).toList ≠ [] ∧ ∀ c ∈ (toString n).toList, Word c := by
  have e : (toString n).toList = Nat.toDigits 10 n := by
    change (Nat.repr n).toList = _
    simp [Nat.repr]
  rw [e]
  refine ⟨Nat.toDigits_ne_nil, fun c hc => ?_⟩
  have hd := Nat.isDigit_of_mem_toDigits (by omega) (by omega) hc
  intro hs
  have : ∀ c ∈ special, c.isDigit = false := by decide
  rw [this c hs] at hd
  cases hd

/-- **C128**: the strings of the integers, of the identity and of zero are numbers in this sense. -/
theorem C128_numbers : (∀ z : Int, Atom (ofInt z)) ∧ Atom one ∧ Atom zero := by
  refine ⟨fun z => ?_, ⟨['1'], by simp, by simp [Word]; decide, .inl rfl⟩, ⟨['0'], by simp, by simp [Word]; decide, .inl rfl⟩⟩
  cases z with
  | ofNat n => exact ⟨(toString n).toList, (repr_word n).1, (repr_word n).2, .inl rfl⟩
  | negSucc n =>
    refine ⟨(toString (n + 1)).toList, (repr_word (n + 1)).1, (repr_word (n + 1)).2, .inr ?_⟩
    change ("-" ++ toString (n + 1)).toList = _
    simp

/-- Specification: the C++ spelling of the operators. -/
def UnOp.cpp : UnOp → String
  | .plus => "+" | .minus => "-" | .compl => "~" | .not => "!"

/-- Specification: the C++ spelling of the operators. -/
def BinOp.cpp : BinOp → String
  | .add => "+" | .sub => "-" | .mul => "*" | .div => "/" | .mod => "%" | .and => "&" | .or => "|" | .xor => "^"
  | .shl => "<<" | .shr => ">>" | .land => "&&" | .lor => "||"

/-- Specification: the text `s` is the C++ expression `e`, fully parenthesised. -/
inductive Reads : List Char → Expr → Prop
  | atom (s : List Char) : Reads s (.atom s)
  | un (op : UnOp) (s : List Char) (a : Expr) : Reads s a → Reads ("(".toList ++ op.cpp.toList ++ s ++ ")".toList) (.un op a)
  | bin (op : BinOp) (s t : List Char) (a b : Expr) : Reads s a → Reads t b →
      Reads ("(".toList ++ s ++ op.cpp.toList ++ t ++ ")".toList) (.bin op a b)

/-- **C128**: read as a C++ expression, the string is the computation itself: the same operators, spelled as in C++, on the
same operands, in the same order. -/
theorem C128_reads (e : Expr) : Reads e.eval e.plain := by
  induction e with
  | atom s => exact .atom s
  | un op a ih =>
    have := Reads.un op _ _ ih
    have h : "(".toList ++ op.cpp.toList ++ a.eval ++ ")".toList = (Expr.un op a).eval := by
      cases op <;> simp [Expr.eval, Symbolic.un, UnOp.cpp, UnOp.chr]
    rwa [h] at this
  | bin op a b iha ihb =>
    have := Reads.bin op _ _ _ _ iha ihb
    have h : "(".toList ++ a.eval ++ op.cpp.toList ++ b.eval ++ ")".toList = (Expr.bin op a b).eval := by
      cases op <;> simp [Expr.eval, Symbolic.bin, BinOp.cpp, BinOp.str]
    rwa [h] at this
  | assign op a b iha ihb =>
    have := Reads.bin op _ _ _ _ iha ihb
    have h : "(".toList ++ a.eval ++ op.cpp.toList ++ b.eval ++ ")".toList = (Expr.assign op a b).eval := by
      cases op <;> simp [Expr.eval, Symbolic.assign, Symbolic.bin, BinOp.cpp, BinOp.str]
    rwa [h] at this

/-- Specification: the value of a decimal number. -/
def decimal : List Char → Int
  | '-' :: d => -(Nat.ofDigitChars 10 d 0 : Int)
  | d => (Nat.ofDigitChars 10 d 0 : Int)

/-- **C128**: the string of an integer is its decimal notation; the identity is 1 and the zero is 0. -/
theorem C128_value : (∀ z : Int, decimal (ofInt z) = z) ∧ decimal one = 1 ∧ decimal zero = 0 := by
  refine ⟨fun z => ?_, by decide, by decide⟩
  have e : ∀ n : Nat, (toString n).toList = Nat.toDigits 10 n := fun n => by
    change (Nat.repr n).toList = _
    simp [Nat.repr]
  cases z with
  | ofNat n =>
    have h1 : ofInt (Int.ofNat n) = Nat.toDigits 10 n := e n
    have h2 := (repr_word n).2
    rw [e] at h2
    rw [h1, decimal, Nat.ofDigitChars_toDigits (by omega) (by omega)]
    · rfl
    · intro d hd
      rw [hd] at h2
      exact absurd (h2 '-' (by simp)) (by simp [Word]; decide)
  | negSucc n =>
    have h1 : ofInt (Int.negSucc n) = '-' :: Nat.toDigits 10 (n + 1) := by
      rw [← e]
      change ("-" ++ toString (n + 1)).toList = _
      simp
    rw [h1, decimal, Nat.ofDigitChars_toDigits (by omega) (by omega)]
    rfl

/-- **C128** (negative): names with operators in them can be taken for an expression. -/
theorem C128_names : (Expr.bin .mul (.atom "(a+b)".toList) (.atom ['c'])).eval =
    (Expr.bin .mul (.bin .add (.atom ['a']) (.atom ['b'])) (.atom ['c'])).eval := by decide

example : (Expr.bin .sub (.un .minus (.atom ['x'])) (.atom "-5".toList)).eval = "((-x)--5)".toList := by decide
example : (Expr.assign .land (.bin .and (.atom ['x']) (.atom ['y'])) (.un .not (.atom ['z']))).Ok :=
  ⟨⟨⟨['x'], by simp, by simp [Word]; decide, .inl rfl⟩, ⟨['y'], by simp, by simp [Word]; decide, .inl rfl⟩⟩,
    ⟨['z'], by simp, by simp [Word]; decide, .inl rfl⟩⟩

end Altruct.Symbolic
