/-
Model of the printing of pairs, triples and containers, include/altruct/io/iostream_overloads.h.  A stream is the list of the characters written so far.
-/
namespace Altruct.Output

/-- iostream_overloads.h:113-117 the loop of `output_container`, with its flag `first`; `f` writes an element. -/
def outLoop {α : Type} (f : α → List Char) (delimiter : List Char) : List α → Bool → List Char → List Char
  | [], _, os => os
  | x :: l, first, os => outLoop f delimiter l false ((if !first then os ++ delimiter else os) ++ f x)

/-- iostream_overloads.h:109-120 `output_container`. -/
def outputContainer {α : Type} (f : α → List Char) (delimiter : List Char) (l : List α) (os : List Char) : List Char :=
  outLoop f delimiter l true (os ++ ['{']) ++ ['}']

/-- iostream_overloads.h:122-139 `operator <<` for containers: the default delimiter. -/
def outVec {α : Type} (f : α → List Char) (l : List α) (os : List Char) : List Char := outputContainer f [',', ' '] l os

/-- iostream_overloads.h:103-106 `operator <<` for a pair. -/
def outPair {α β : Type} (f : α → List Char) (g : β → List Char) (p : α × β) (os : List Char) : List Char := os ++ ['{'] ++ f p.1 ++ [',', ' '] ++ g p.2 ++ ['}']

/-- iostream_overloads.h:143-146 `operator <<` for a triple. -/
def outTriple {α : Type} (f : α → List Char) (p : α × α × α) (os : List Char) : List Char := os ++ ['{'] ++ f p.1 ++ [',', ' '] ++ f p.2.1 ++ [',', ' '] ++ f p.2.2 ++ ['}']

/-- The types built from a type of elements by containers, pairs and triples.  (A `std::map` is a container of pairs.) -/
inductive Ty where
  | base
  | vec (t : Ty)
  | pair (a b : Ty)
  | triple (t : Ty)

/-- The values of such a type; a container is the list of its elements in the order of iteration. -/
def Val (B : Type) : Ty → Type
  | .base => B
  | .vec t => List (Val B t)
  | .pair a b => Val B a × Val B b
  | .triple t => Val B t × Val B t × Val B t

/-- What `os << x` appends, chosen by the type of `x` as overload resolution does; `f` is the printing of the elements. -/
def out {B : Type} (f : B → List Char) : (t : Ty) → Val B t → List Char
  | .base, x => f x
  | .vec t, x => outVec (out f t) x []
  | .pair a b, x => outPair (out f a) (out f b) x []
  | .triple t, x => outTriple (out f t) x []

/-- iostream_overloads.h:156-165 `operator <<` for a fraction `p / q`; the two flags of `iostream_fraction_state` are parameters. -/
def outFraction (f : Int → List Char) (asPair always : Bool) (x : Int × Int) : List Char :=
  if asPair then outPair f f x [] else if always || !(x.2 == 1) then f x.1 ++ ['/'] ++ f x.2 else f x.1

/-- iostream_overloads.h:175-184 `operator <<` for a residue `v` modulo `M`; the two flags of `iostream_modulo_state` are parameters. -/
def outModulo (f : Int → List Char) (asPair modulus : Bool) (x : Int × Int) : List Char :=
  if asPair then outPair f f x [] else if modulus then f x.1 ++ [' ', '(', 'm', 'o', 'd', ' '] ++ f x.2 ++ [')'] else f x.1

end Altruct.Output
