/-
Model of `include/altruct/structure/math/symbolic.h`: values that record the expression computing them.  A value is the
string `v`, here a list of characters.
-/
namespace Altruct.Symbolic

/-- The unary operators of symbolic.h:29-30, 37, 44. -/
inductive UnOp where
  | plus | minus | compl | not
deriving DecidableEq

/-- The binary operators of symbolic.h:31-35, 38-42, 45-46. -/
inductive BinOp where
  | add | sub | mul | div | mod | and | or | xor | shl | shr | land | lor
deriving DecidableEq

/-- The character written for a unary operator, symbolic.h:29-30, 37, 44. -/
def UnOp.chr : UnOp → Char
  | plus => '+'
  | minus => '-'
  | compl => '~'
  | not => '!'

/-- The characters written for a binary operator, symbolic.h:31-35, 38-42, 45-46. -/
def BinOp.str : BinOp → List Char
  | add => ['+']
  | sub => ['-']
  | mul => ['*']
  | div => ['/']
  | mod => ['%']
  | and => ['&']
  | or => ['|']
  | xor => ['^']
  | shl => ['<', '<']
  | shr => ['>', '>']
  | land => ['&', '&']
  | lor => ['|', '|']

/-- symbolic.h:29-30, 37, 44 the unary operators: `"(" + op + v + ")"`. -/
def un (op : UnOp) (v : List Char) : List Char := '(' :: op.chr :: (v ++ [')'])

/-- symbolic.h:31-35, 38-42, 45-46 the binary operators: `"(" + v + op + s.v + ")"`. -/
def bin (op : BinOp) (v s : List Char) : List Char := '(' :: (v ++ (op.str ++ (s ++ [')'])))

/-- symbolic.h:18-27 the compound assignments: the object afterwards. -/
def assign (op : BinOp) (v s : List Char) : List Char := bin op v s

/-- symbolic.h:15 construction from an `int`, and symbolic.h:50-54 from an integer. -/
def ofInt (z : Int) : List Char := (toString z).toList

/-- symbolic.h:62-67 `identityOf`. -/
def one : List Char := ['1']
/-- symbolic.h:69-74 `zeroOf`. -/
def zero : List Char := ['0']

end Altruct.Symbolic
