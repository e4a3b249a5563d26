/-
Model of `include/altruct/io/stream_tokenizer.h`: reading tokens from a stream.  A stream is what is left to read and whether
it is usable (`!fail()`); `ws` is `std::isspace` of the stream's locale.
-/
namespace Altruct.Tokenizer

/-- An input stream: the characters left, and `!fail()`. -/
structure Stream where
  rest : List Char
  ok : Bool
deriving DecidableEq

/-- stream_tokenizer.h:86-93 the loop of `>> token`: the characters pushed and the stream afterwards.  `get` at the end
sets the fail bit; `unget` puts the character back. -/
def getLoop (P : Char → Bool) : List Char → List Char × Stream
  | [] => ([], ⟨[], false⟩)
  | c :: s => if P c then (c :: (getLoop P s).1, (getLoop P s).2) else ([], ⟨c :: s, true⟩)

/-- stream_tokenizer.h:81-95 `>> token<P>`.  `std::ws` skips white space whatever the flag `skipws` is. -/
def readTok (ws P : Char → Bool) (st : Stream) : List Char × Stream :=
  if st.ok then getLoop P (st.rest.dropWhile ws) else ([], st)

/-- stream_tokenizer.h:97-109 `>> tokens<token<P>, token<D>>`: the tokens; `none` when the loop is repeated for ever. -/
def readToks (ws P D : Char → Bool) (st : Stream) : Option (List (List Char)) :=
  if st.ok then
    if (readTok ws D (readTok ws P st).2).2.ok then
      if _h : (readTok ws D (readTok ws P st).2).2.rest.length < st.rest.length then
        (readToks ws P D (readTok ws D (readTok ws P st).2).2).map fun ts => (readTok ws P st).1 :: ts
      else none
    else some [(readTok ws P st).1]
  else some []
termination_by st.rest.length

/-- stream_tokenizer.h:37-40 `delimited_p<Ds...>`. -/
def delimitedP (ds : List Char) (c : Char) : Bool := ds.all fun d => c != d
/-- stream_tokenizer.h:42-45 `allowed_p<As...>`. -/
def allowedP (as : List Char) (c : Char) : Bool := as.any fun a => c == a
/-- stream_tokenizer.h:47-50 `not_p<P>`. -/
def notP (P : Char → Bool) (c : Char) : Bool := !P c

/-- stream_tokenizer.h:59-60 `tokens_delimited<Ds...>` read from the text `s`. -/
def readDelimited (ws : Char → Bool) (ds : List Char) (s : List Char) : Option (List (List Char)) :=
  readToks ws (delimitedP ds) (allowedP ds) ⟨s, true⟩

/-- stream_tokenizer.h:56-57 `tokens_allowed<P>` read from the text `s`. -/
def readAllowed (ws P : Char → Bool) (s : List Char) : Option (List (List Char)) :=
  readToks ws P (notP P) ⟨s, true⟩

/-- stream_tokenizer.h:22-29 `unbox_tokens`. -/
def unbox {T : Type} (f : List Char → T) (ts : List (List Char)) : List T := ts.foldl (fun vt t => vt ++ [f t]) []

end Altruct.Tokenizer
