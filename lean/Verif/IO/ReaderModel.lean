/-
Model of io/reader.h (`buffered_reader`, strings, lines and integers of `simple_reader`) and of the same functions of
`fast_read` in io/fast_io.h.

A `char` is an integer from -128 to 127.  The underlying reader delivers its characters in chunks of any size.
`none` is an access outside the buffer, a loop that does not end, or an overflow.
-/
import Verif.IO.WriterModel

namespace Altruct.IO

/-- The underlying reader: what it has not delivered yet, and the sizes in which it delivers it. -/
structure Src where
  rest : List Int
  chunks : List Nat

/-- `in.read(buffer, count)`: between 1 and `count` characters, as long as there are any. -/
def Src.read (s : Src) (count : Nat) : List Int × Src :=
  let k := match s.chunks with
    | [] => count
    | c :: _ => max 1 (min c count)
  let k := if count = 0 then 0 else k
  (s.rest.take k, ⟨s.rest.drop k, s.chunks.tail⟩)

/-- reader.h:135-142 the members of `buffered_reader`: the buffer of `capacity + 1` characters, `ptr - buff`,
`end - buff`. -/
structure Reader where
  buff : List Int
  ptr : Nat
  fin : Nat
  capacity : Nat
  failed : Bool
  src : Src

/-- reader.h:147-152 (fast_io.h:36-42) the constructor; `raw` is the uninitialised content of the buffer. -/
def Reader.mk' (raw : List Int) (capacity : Nat) (src : Src) : Option Reader := do
  let b ← wr raw capacity 0
  some ⟨b, 0, 0, capacity, false, src⟩

/-- reader.h:171-176 the loop of `refill`. -/
def Reader.refillLoop : Nat → Reader → Option Reader
  | fuel, s =>
    if s.fin < s.capacity then
      match fuel with
      | 0 => none
      | fuel + 1 =>
        let (cs, src) := s.src.read (s.capacity - s.fin)
        if cs.length = 0 then some { s with src := src }
        else do
          let b ← copyTo s.buff s.fin cs
          Reader.refillLoop fuel { s with buff := b, fin := s.fin + cs.length, src := src }
    else some s

/-- reader.h:164-179 `refill`; `fast` is fast_io.h:50-64, which does not write the terminating zero.  `std::copy` to the
beginning of the buffer copies forwards, so it is as if the characters were all read first. -/
def Reader.refill (fast : Bool) (s : Reader) : Option Reader :=
  if s.ptr ≤ s.fin ∧ s.fin ≤ s.buff.length then do
    let b ← copyTo s.buff 0 ((s.buff.drop s.ptr).take (s.fin - s.ptr))
    let s := { s with buff := b, ptr := 0, fin := s.fin - s.ptr }
    let s ← Reader.refillLoop (s.capacity + 1) s
    let b ← (if fast then some s.buff else wr s.buff s.fin 0)
    some { s with buff := b }
  else none

/-- reader.h:183-186 (fast_io.h:68-71) `reserve`: returns the number of available characters. -/
def Reader.reserve (fast : Bool) (s : Reader) (count : Nat) : Option (Reader × Nat) :=
  if s.ptr ≤ s.fin then
    if s.fin - s.ptr ≥ count then some (s, s.fin - s.ptr)
    else do
      let s ← s.refill fast
      some (s, s.fin - s.ptr)
  else none

/-- reader.h:191-198 `data`: the first `count` characters at the returned pointer, `none` for `nullptr`. -/
def Reader.data (s : Reader) (count : Nat) : Option (Reader × Option (List Int)) := do
  let (s, available) ← s.reserve false count
  if available < count then some ({ s with failed := true }, none)
  else some (s, some ((s.buff.drop s.ptr).take count))

/-- reader.h:215-220 `skip`. -/
def Reader.skip (s : Reader) (count : Nat) : Option (Reader × Nat) :=
  if s.ptr ≤ s.fin then
    let count := min count (s.fin - s.ptr)
    some ({ s with ptr := s.ptr + count }, count)
  else none

/-- reader.h:225-227 `unread_char`. -/
def Reader.unread (s : Reader) : Option Reader :=
  if s.ptr = 0 then none else some { s with ptr := s.ptr - 1 }

/-- reader.h:229-236 `read_char`; `fast` is fast_io.h:113-119. -/
def Reader.readChar (fast : Bool) (s : Reader) : Option (Int × Reader) :=
  if fast then do
    let s ← (if s.ptr ≥ s.fin then s.refill true else some s)
    if s.ptr ≥ s.fin then some (-1, s)
    else do
      let c ← rd s.buff s.ptr
      some (c, { s with ptr := s.ptr + 1 })
  else do
    let (s, available) ← s.reserve false 1
    if available < 1 then some (-1, { s with failed := true })
    else do
      let c ← rd s.buff s.ptr
      some (c, { s with ptr := s.ptr + 1 })

/-- reader.h:238-245 `read`. -/
def Reader.read (s : Reader) (count : Nat) : Option (List Int × Reader) := do
  let (s, available) ← s.reserve false count
  let s := if available < count then { s with failed := true } else s
  let count := min count available
  if s.ptr + count ≤ s.buff.length then some ((s.buff.drop s.ptr).take count, { s with ptr := s.ptr + count }) else none

/-! ### Strings, lines and integers -/

/-- The loops `while (p(c)) { t = upd(t, c); c = read_char(); }`, from a character `c` that has been read. -/
def readWhile {T : Type} (fast : Bool) (p : Int → Bool) (upd : T → Int → Option T) : Nat → Int → T → Reader → Option (Int × T × Reader)
  | fuel, c, t, s =>
    if p c then
      match fuel with
      | 0 => none
      | fuel + 1 => do
        let t ← upd t c
        let (c, s) ← s.readChar fast
        readWhile fast p upd fuel c t s
    else some (c, t, s)

/-- `if (c != -1) unread_char();` -/
def unreadUnlessEof (c : Int) (s : Reader) : Option Reader := if c ≠ -1 then s.unread else some s

/-- reader.h:268-276 `read_line`. -/
def Reader.readLine (fast : Bool) (fuel : Nat) (delimiter : Int) (s : Reader) : Option (List Int × Reader) := do
  let (c, s) ← s.readChar fast
  let (_, t, s) ← readWhile fast (fun c => decide (c ≠ delimiter ∧ c ≠ -1)) (fun t c => some (t ++ [c])) fuel c [] s
  some (t, s)

/-- reader.h:292-298 (fast_io.h:135-141) `skip_whitespaces`. -/
def Reader.skipWs (fast : Bool) (fuel : Nat) (s : Reader) : Option Reader := do
  let (c, s) ← s.readChar fast
  let (c, _, s) ← readWhile fast (fun c => decide (0 ≤ c ∧ c ≤ 32)) (fun t _ => some t) fuel c () s
  unreadUnlessEof c s

/-- reader.h:279-289 (fast_io.h:122-132) `read_string`. -/
def Reader.readString (fast : Bool) (fuel : Nat) (s : Reader) : Option (List Int × Reader) := do
  let s ← s.skipWs fast fuel
  let (c, s) ← s.readChar fast
  let (c, t, s) ← readWhile fast (fun c => decide (c > 32)) (fun t c => some (t ++ [c])) fuel c [] s
  let s ← unreadUnlessEof c s
  some (t, s)

/-- reader.h:302-308 (fast_io.h:145-151) `read_sign`. -/
def Reader.readSign (fast : Bool) (s : Reader) : Option (Int × Reader) := do
  let (c, s) ← s.readChar fast
  if c = 45 then some (-1, s)
  else if c = 43 then some (1, s)
  else do
    let s ← unreadUnlessEof c s
    some (1, s)

/-- reader.h:312-323 (fast_io.h:155-166) `read_digits` from zero; `hi` is the greatest value of the type. -/
def Reader.readDigits (fast : Bool) (fuel : Nat) (hi : Int) (s : Reader) : Option (Int × Reader) := do
  let (c, s) ← s.readChar fast
  let (c, d, s) ← readWhile fast (fun c => decide (48 ≤ c ∧ c ≤ 57)) (fun d c => if d * 10 + (c - 48) ≤ hi then some (d * 10 + (c - 48)) else none) fuel c 0 s
  let s ← unreadUnlessEof c s
  some (d, s)

/-- reader.h:327-332 (fast_io.h:170-175) `read_integral_number`. -/
def Reader.readInt (fast : Bool) (fuel : Nat) (hi : Int) (s : Reader) : Option (Int × Reader) := do
  let s ← s.skipWs fast fuel
  let (sg, s) ← s.readSign fast
  let (d, s) ← s.readDigits fast fuel hi
  some (if sg < 0 then -d else d, s)

/-! ### Histories -/

/-- The calls on a reader. -/
inductive ROp where
  | char
  | unread
  | read (count : Nat)
  | data (count : Nat)
  | skip (count : Nat)
  | ok
deriving DecidableEq

/-- What a call returns. -/
inductive ROut where
  | unit
  | int (c : Int)
  | bytes (l : List Int)
  | ptr (l : Option (List Int))
  | num (n : Nat)
  | bool (b : Bool)
deriving DecidableEq

/-- One call on a `buffered_reader`. -/
def Reader.step (s : Reader) : ROp → Option (Reader × ROut)
  | .char => do let (c, s) ← s.readChar false; some (s, .int c)
  | .unread => do let s ← s.unread; some (s, .unit)
  | .read n => do let (l, s) ← s.read n; some (s, .bytes l)
  | .data n => do let (s, l) ← s.data n; some (s, .ptr l)
  | .skip n => do let (s, k) ← s.skip n; some (s, .num k)
  | .ok => some (s, .bool (!s.failed))

/-- A history with what it returns. -/
def Reader.run : Reader → List ROp → Option (Reader × List ROut)
  | s, [] => some (s, [])
  | s, op :: ops => do
    let (s, o) ← s.step op
    let (s, os) ← Reader.run s ops
    some (s, o :: os)

end Altruct.IO
