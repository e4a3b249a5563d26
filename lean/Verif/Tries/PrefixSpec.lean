/-
A numbered set of words.
-/
import Verif.Tries.PrefixModel
import Mathlib.Data.List.Basic
import Mathlib.Data.Finset.Card
import Mathlib.Data.Finset.Dedup

namespace Altruct.Tries

/-- The word with the number `id`; 0 stands for the empty word. -/
def wordOf (ws : List (List Nat)) (id : Nat) : List Nat := if id = 0 then [] else ws.getD (id - 1) []

/-- The number of a word, counted from 1; 0 if it is not there. -/
def numberOf (ws : List (List Nat)) (w : List Nat) : Nat := if w ∈ ws then ws.idxOf w + 1 else 0

/-- A new word goes to the end; the empty word is not added. -/
def addWord (ws : List (List Nat)) (w : List Nat) : List (List Nat) := if w = [] ∨ w ∈ ws then ws else ws ++ [w]

/-- The last word takes the place of the removed one. -/
def eraseWord (ws : List (List Nat)) (id : Nat) : List (List Nat) :=
  if id = 0 then ws else (ws.set (id - 1) (ws.getLastD [])).dropLast

/-- The words after a call. -/
def nextWords (ws : List (List Nat)) : TrOp → List (List Nat)
  | .add w => addWord ws w
  | .append id w => addWord ws (wordOf ws id ++ w)
  | .erase id => eraseWord ws id
  | .eraseWord w => eraseWord ws (numberOf ws w)
  | _ => ws

/-- What a call has to return. -/
def OutOk (ws : List (List Nat)) : TrOp → TrOut → Prop
  | .add w, .num n => n = numberOf (addWord ws w) w
  | .append id w, .num n => n = numberOf (addWord ws (wordOf ws id ++ w)) (wordOf ws id ++ w)
  | .find w, .num n => n = numberOf ws w
  | .get id, .word w => w = wordOf ws id
  | .forEach id, .visits l => (l.map Prod.fst).Pairwise (List.Lex (· < ·)) ∧
      ∀ w n, (w, n) ∈ l ↔ w ∈ ws ∧ n = numberOf ws w ∧ wordOf ws id <+: w
  | .erase id, .num n => n = id
  | .eraseWord w, .num n => n = numberOf ws w
  | .numWords, .num n => n = ws.length
  | .numLetters, .num n => n = ((ws.flatMap List.inits).toFinset.erase []).card
  | _, _ => False

/-- Calls with letters of the alphabet and numbers of words (or 0). -/
def LegalOps (A : Nat) : List (List Nat) → List TrOp → Prop
  | _, [] => True
  | ws, op :: ops => (match op with
    | .add w | .find w | .eraseWord w => ∀ c ∈ w, c < A
    | .append id w => id ≤ ws.length ∧ ∀ c ∈ w, c < A
    | .get id | .forEach id | .erase id => id ≤ ws.length
    | _ => True) ∧ LegalOps A (nextWords ws op) ops

/-- All calls return what they have to. -/
def OutsOk : List (List Nat) → List TrOp → List TrOut → Prop
  | _, [], [] => True
  | ws, op :: ops, out :: outs => OutOk ws op out ∧ OutsOk (nextWords ws op) ops outs
  | _, _, _ => False

/-- The number of letters in the words that are added. -/
def opsLetters : List TrOp → Nat
  | [] => 0
  | .add w :: ops | .append _ w :: ops => w.length + opsLetters ops
  | _ :: ops => opsLetters ops

end Altruct.Tries
