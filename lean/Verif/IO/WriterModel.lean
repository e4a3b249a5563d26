/-
Model of io/writer.h (`string_writer`, `buffered_writer`, integers of `simple_writer`) and of the same functions of
`fast_write` in io/fast_io.h.

A `char` is an integer from -128 to 127.  The underlying writer is a sink that keeps all the characters it has been
given.  `none` is an access outside the buffer, a loop that does not end, or an overflow.
-/
import Verif.Common.Vec

namespace Altruct.IO

/-- Conversion of an `int` to `char`. -/
def toChar (c : Int) : Int := (c + 128) % 256 - 128

/-- writer.h:134-151 the members of `buffered_writer`: the buffer of `capacity + 1` characters, `ptr - buff`, and
what the underlying writer has received.  `end` is always `buff + capacity`. -/
structure Writer where
  buff : List Int
  ptr : Nat
  capacity : Nat
  sink : List Int

/-- writer.h:145-151 (fast_io.h:260-266) the constructor; `raw` is the uninitialised content of the buffer. -/
def Writer.mk' (raw : List Int) (capacity : Nat) : Option Writer := do
  let b ← wr raw capacity 0
  some ⟨b, 0, capacity, []⟩

/-- writer.h:159-165 `flush`; `zero` tells whether `*ptr = 0` is done (it is not in fast_io.h:274-279). -/
def Writer.flush (zero : Bool) (s : Writer) : Option Writer :=
  if s.ptr ≤ s.buff.length then do
    let b ← if zero then wr s.buff 0 0 else some s.buff
    some { s with sink := s.sink ++ s.buff.take s.ptr, ptr := 0, buff := b }
  else none

/-- writer.h:194-200 (fast_io.h:308-314) `write_char`. -/
def Writer.writeChar (zero : Bool) (s : Writer) (c : Int) : Option Writer := do
  let s ← if s.ptr ≥ s.capacity then s.flush zero else some s
  let b ← wr s.buff s.ptr (toChar c)
  some { s with buff := b, ptr := s.ptr + 1 }

/-- `std::copy` of characters to the buffer, from position `i`. -/
def copyTo (b : List Int) (i : Nat) : List Int → Option (List Int)
  | [] => some b
  | c :: cs => do
    let b ← wr b i c
    copyTo b (i + 1) cs

/-- writer.h:202-213 `write`: the loop; each iteration but the first starts with an empty buffer. -/
def Writer.write (zero : Bool) : Nat → Writer → List Int → Option Writer
  | fuel, s, buffer =>
    if buffer.length > 0 then
      match fuel with
      | 0 => none
      | fuel + 1 =>
        if s.ptr ≤ s.capacity then do
          let len := min (s.capacity - s.ptr) buffer.length
          let b ← copyTo s.buff s.ptr (buffer.take len)
          let s := { s with buff := b, ptr := s.ptr + len }
          let rest := buffer.drop len
          let s ← if rest.length > 0 then s.flush zero else some s
          Writer.write zero fuel s rest
        else none
    else some s

/-- fast_io.h:316-321 `write_string`: character by character. -/
def Writer.writeChars (zero : Bool) : Writer → List Int → Option Writer
  | s, [] => some s
  | s, c :: cs => do
    let s ← s.writeChar zero c
    Writer.writeChars zero s cs

/-- writer.h:169-172 (fast_io.h:283-286) `reserve`; it also returns the number of characters that can be written. -/
def Writer.reserve (zero : Bool) (s : Writer) (count : Nat) : Option (Writer × Nat) :=
  if s.ptr ≤ s.capacity then
    if s.capacity - s.ptr ≥ count then some (s, s.capacity - s.ptr)
    else do
      let s ← s.flush zero
      some (s, s.capacity - s.ptr)
  else none

/-- `strlen` of the characters from position `i`. -/
def strlen (b : List Int) : Nat → Nat → Option Nat
  | 0, _ => none
  | fuel + 1, i => do
    let c ← rd b i
    if c = 0 then some 0 else do
    let n ← strlen b fuel (i + 1)
    some (n + 1)

/-- writer.h:182-192 formatted output: `data(count)`, then `sprintf` of the text there, then `advance()`. -/
def Writer.format (zero : Bool) (s : Writer) (count : Nat) (text : List Int) : Option Writer := do
  let (s, available) ← s.reserve zero count
  if available ≥ count then do
    let b ← copyTo s.buff s.ptr (text ++ [0])
    let s := { s with buff := b }
    let n ← strlen s.buff (s.buff.length + 1) s.ptr
    some { s with ptr := s.ptr + n }
  else none

/-- writer.h:253-256 (fast_io.h:335-338) the digits of `d`, least significant first; `tc` has `sizeof(tc)` cells. -/
def digitLoop (size len : Nat) : Nat → Nat → Int → List Int → List Int
  | 0, _, _, tc => tc
  | fuel + 1, i, d, tc =>
    if (d > 0 ∨ i < len) ∧ i < size then digitLoop size len fuel (i + 1) (d.tdiv 10) (tc ++ [toChar (d.tmod 10 + 48)])
    else tc

/-- writer.h:246-261 (fast_io.h:328-343) `write_integral_number`; `lo` is the least value of the type, which cannot be
negated. -/
def Writer.writeInt (zero : Bool) (lo : Int) (s : Writer) (d : Int) (len : Nat := 1) : Option Writer := do
  let (s, d) ← if d < 0 then (if d = lo then none else do
      let s ← s.writeChar zero 45
      some (s, -d))
    else some (s, d)
  let tc := digitLoop 50 len 51 0 d []
  s.writeChars zero tc.reverse

/-! ### `string_writer` -/

/-- writer.h:97-105 the members: the array, its capacity, and the position. -/
structure SWriter where
  out : List Int
  capacity : Nat
  pos : Nat

/-- writer.h:107-111 `write_char`. -/
def SWriter.writeChar (s : SWriter) (c : Int) : Option SWriter :=
  if s.pos ≥ s.capacity then some s
  else do
    let o ← wr s.out s.pos (toChar c)
    some { s with out := o, pos := s.pos + 1 }

/-- writer.h:113-119 `write`. -/
def SWriter.write (s : SWriter) (buffer : List Int) : Option SWriter :=
  if s.pos ≥ s.capacity then some s
  else do
    let count := min buffer.length (s.capacity - s.pos)
    let o ← copyTo s.out s.pos (buffer.take count)
    some { s with out := o, pos := s.pos + count }

/-! ### Histories -/

/-- The calls on a writer. -/
inductive WOp where
  | char (c : Int)
  | write (buffer : List Int)
  | chars (s : List Int)
  | int (d : Int) (len : Nat)
  | format (count : Nat) (text : List Int)
  | reserve (count : Nat)
  | flush

/-- One call. -/
def Writer.step (zero : Bool) (lo : Int) (s : Writer) : WOp → Option Writer
  | .char c => s.writeChar zero c
  | .write b => s.write zero (b.length + 1) b
  | .chars b => s.writeChars zero b
  | .int d len => s.writeInt zero lo d len
  | .format n t => s.format zero n t
  | .reserve n => do let (s, _) ← s.reserve zero n; some s
  | .flush => s.flush zero

/-- A history. -/
def Writer.run (zero : Bool) (lo : Int) : Writer → List WOp → Option Writer
  | s, [] => some s
  | s, op :: ops => do
    let s ← s.step zero lo op
    Writer.run zero lo s ops

/-- One call on a `string_writer`. -/
def SWriter.step (s : SWriter) : WOp → Option SWriter
  | .char c => s.writeChar c
  | .write b => s.write b
  | .flush => some s
  | _ => none

/-- A history. -/
def SWriter.run : SWriter → List WOp → Option SWriter
  | s, [] => some s
  | s, op :: ops => do
    let s ← s.step op
    SWriter.run s ops

end Altruct.IO
