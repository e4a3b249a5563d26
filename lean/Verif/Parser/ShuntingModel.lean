/-
Model of algorithm/parser/shunting_yard.h.

A token's `id` is a natural number.  The stack is a list with its top first.  `num_args` of the code is always assigned
right before it is used, so it is not part of the state.  `none` is an access outside a vector.
-/
import Verif.Common.Vec

namespace Altruct.Parser

/-- shunting_yard.h:14-19 `infix_token`. -/
inductive Tok where
  | operand (id : Nat)
  | operator (id : Nat)
  | lpar
  | rpar
  | function (id : Nat)
  | separator
deriving DecidableEq

/-- shunting_yard.h:24-34 `postfix_token`. -/
inductive PTok where
  | operand (id : Nat)
  | function (id : Nat) (num_args : Nat)
deriving DecidableEq

/-- shunting_yard.h:42-48 `operator_desc`. -/
structure OpDesc where
  precedence : Int
  left : Bool
  unary : Bool
deriving DecidableEq

/-- shunting_yard.h:50-53 `operator <`. -/
def OpDesc.lt (a b : OpDesc) : Bool :=
  if a.precedence ≠ b.precedence then decide (a.precedence < b.precedence) else a.left

/-- shunting_yard.h:55-57 `num_args`. -/
def OpDesc.numArgs (a : OpDesc) : Nat := if a.unary then 1 else 2

/-- shunting_yard.h:82-89 `pop_operators(id)`; `none` is the argument -1. -/
def popOperators (ops : List OpDesc) (id : Option Nat) (res : List PTok) : List Tok → Option (List PTok × List Tok)
  | .operator t :: stk => do
    let top ← rd ops t
    let pop ← match id with
      | none => some true
      | some i => do let d ← rd ops i; some (d.lt top)
    if pop then popOperators ops id (res ++ [.function t top.numArgs]) stk else some (res, .operator t :: stk)
  | stk => some (res, stk)

/-- shunting_yard.h:105-107 the loop over separators. -/
def popSeparators (num_args : Nat) : List Tok → Nat × List Tok
  | .separator :: stk => popSeparators (num_args + 1) stk
  | stk => (num_args, stk)

/-- shunting_yard.h:108-114 the end of a parenthesis. -/
def closePar (num_args : Nat) (res : List PTok) (stk : List Tok) : List PTok × List Tok :=
  let stk := match stk with
    | .lpar :: stk => stk
    | stk => stk
  match stk with
  | .function f :: stk => (res ++ [.function f num_args], stk)
  | stk => (res, stk)

/-- shunting_yard.h:91-123 one token. -/
def sstep (ops : List OpDesc) (res : List PTok) (stk : List Tok) : Tok → Option (List PTok × List Tok)
  | .operand i => some (res ++ [.operand i], stk)
  | .operator i => do
    let (res, stk) ← popOperators ops (some i) res stk
    some (res, .operator i :: stk)
  | .lpar => some (res, .lpar :: stk)
  | .rpar => do
    let (res, stk) ← popOperators ops none res stk
    let (n, stk) := popSeparators 1 stk
    some (closePar n res stk)
  | .function f => some (res, .function f :: stk)
  | .separator => do
    let (res, stk) ← popOperators ops none res stk
    some (res, .separator :: stk)

/-- shunting_yard.h:90-124 the loop over the tokens. -/
def srun (ops : List OpDesc) : List Tok → List PTok × List Tok → Option (List PTok × List Tok)
  | [], s => some s
  | t :: ts, (res, stk) => do
    let s ← sstep ops res stk t
    srun ops ts s

/-- shunting_yard.h:75-127 `infix_to_postfix`. -/
def infixToPostfix (toks : List Tok) (ops : List OpDesc) : Option (List PTok) := do
  let (res, stk) ← srun ops toks ([], [])
  let (res, _) ← popOperators ops none res stk
  some res

/-- shunting_yard.h:138-158 `evaluate_postfix`; the evaluator of a function gets the arguments on the stack, `none` is a
function that is not there or that cannot be called with these arguments. -/
def evalPostfix {T : Type} (vals : List T) (ev : Nat → List T → Option T) : List PTok → List T → Option (List T)
  | [], stk => some stk
  | .operand i :: ts, stk => do
    let v ← rd vals i
    evalPostfix vals ev ts (stk ++ [v])
  | .function f n :: ts, stk =>
    if n ≤ stk.length then do
      let r ← ev f (stk.drop (stk.length - n))
      evalPostfix vals ev ts (stk.take (stk.length - n) ++ [r])
    else none

end Altruct.Parser
