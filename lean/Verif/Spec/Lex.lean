import Verif.Model.Go

/-!
# The sizes of the tokens in a sequence of bytes

A small lexer, to say that no string and no number of a document fills a buffer. It does not use a definition of the model.
-/

namespace Verif.Spec

/-- The lexer is between two tokens, in a string (is the next character escaped? how many bytes after the opening quote?), in a number
(how many bytes?), or in one of the words `null`, `true`, `false` (how many bytes are missing?). -/
inductive LexState
  | between
  | string (escaped : Bool) (n : Nat)
  | number (n : Nat)
  | word (missing : Nat)
deriving DecidableEq

/-- The first character of a number. -/
def NumberStart (c : UInt8) : Prop := c = c!"-" ∨ (c!"0" ≤ c ∧ c ≤ c!"9")

/-- The other characters of a number, as far as the parser knows them. -/
def NumberChar (c : UInt8) : Prop := NumberStart c ∨ c = c!"." ∨ c = c!"e"

instance (c : UInt8) : Decidable (NumberStart c) := inferInstanceAs (Decidable (_ ∨ _))
instance (c : UInt8) : Decidable (NumberChar c) := inferInstanceAs (Decidable (_ ∨ _))

/-- The first byte after a token. -/
def LexState.start (c : UInt8) : LexState :=
  if c = c!"\"" then .string false 0
  else if NumberStart c then .number 1
  else if c = c!"n" ∨ c = c!"t" then .word 3
  else if c = c!"f" then .word 4
  else .between

/-- One byte. -/
def LexState.next : LexState → UInt8 → LexState
  | .between, c => LexState.start c
  | .string true n, _ => .string false (n + 1)
  | .string false n, c =>
    if c = c!"\\" then .string true (n + 1)
    else if c = c!"\"" then .between
    else .string false (n + 1)
  | .number n, c => if NumberChar c then .number (n + 1) else LexState.start c
  | .word n, _ => if n ≤ 1 then .between else .word (n - 1)

/-- The number of bytes of the current string (between the quotes) or number. -/
def LexState.size : LexState → Nat
  | .string _ n => n
  | .number n => n
  | _ => 0

/-- From a state of the lexer on, every string and every number has fewer than `size` bytes. -/
def FitsFrom (size : Nat) : LexState → List UInt8 → Prop
  | _, [] => True
  | st, c :: rest => (st.next c).size < size ∧ FitsFrom size (st.next c) rest

/-- Every string and every number in the document has fewer than `size` bytes (also an unterminated one at the end). -/
def TokensFit (size : Nat) (data : List UInt8) : Prop := FitsFrom size .between data

instance (size : Nat) : (st : LexState) → (data : List UInt8) → Decidable (FitsFrom size st data)
  | _, [] => inferInstanceAs (Decidable True)
  | st, c :: rest =>
    have := instDecidableFitsFrom size (st.next c) rest
    inferInstanceAs (Decidable (_ ∧ _))

instance (size : Nat) (data : List UInt8) : Decidable (TokensFit size data) := inferInstanceAs (Decidable (FitsFrom _ _ _))

/-! ## Tokens that fill a buffer -/

/-- The state after some bytes. -/
def LexState.after (st : LexState) (l : List UInt8) : LexState := l.foldl LexState.next st

/-- The bytes begin with a string (or a number) of which `size` bytes behind the quote (or `size` bytes) do not contain the end, and then there
are more bytes. -/
def Oversized (size : Nat) (s : List UInt8) : Prop :=
  ((∃ esc, LexState.between.after (s.take (size + 1)) = .string esc size) ∧ size + 1 < s.length) ∨
  (LexState.between.after (s.take size) = .number size ∧ size < s.length)

/-- The same, but there are no more bytes. -/
def Filling (size : Nat) (s : List UInt8) : Prop :=
  ((∃ esc, LexState.between.after s = .string esc size) ∧ s.length = size + 1) ∨
  (LexState.between.after s = .number size ∧ s.length = size)

/-- Between some bytes and the next byte one token ends and another one can begin. -/
def TokenEnds (before : List UInt8) (c : UInt8) : Prop :=
  LexState.between.after before = .between ∨ ((∃ n, LexState.between.after before = .number n) ∧ ¬ NumberChar c)

end Verif.Spec
