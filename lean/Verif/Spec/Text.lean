import Verif.Types
import Verif.Regexes
/-!
# What strings may contain

A specification of the contents of the four kinds of strings, character by character, without the patterns of the program.
-/

namespace Tomllib

/-- A text made of pieces. -/
inductive Pieces (p : Str → Prop) : Str → Prop where
  | nil : Pieces p []
  | cons {u s} : p u → Pieces p s → Pieces p (u ++ s)

/-- Characters of the basic multilingual plane from the space on. -/
def plain (c : Char) : Prop := 0x20 ≤ c.toNat ∧ c.toNat ≤ 0xFFFF

/-- What stands for a hexadecimal digit: a digit or a capital letter (all of them, not only `A` to `F`). -/
def hexLike (c : Char) : Prop := (0x30 ≤ c.toNat ∧ c.toNat ≤ 0x39) ∨ (0x41 ≤ c.toNat ∧ c.toNat ≤ 0x5A)

/-- `\uXXXX` and `\UXXXXXXXX`. -/
inductive UnicodeEsc : Str → Prop where
  | u4 (h : Str) : h.length = 4 → (∀ c ∈ h, hexLike c) → UnicodeEsc ('\\' :: 'u' :: h)
  | u8 (h : Str) : h.length = 8 → (∀ c ∈ h, hexLike c) → UnicodeEsc ('\\' :: 'U' :: h)

/-- One piece of a basic string: a character other than quote and backslash, or an escape. -/
inductive BasicPiece : Str → Prop where
  | char (c : Char) : plain c → c ≠ '"' → c ≠ '\\' → BasicPiece [c]
  | esc (c : Char) : c ∈ lit% "\"\\/bfnrt" → BasicPiece ['\\', c]
  | uni {s : Str} : UnicodeEsc s → BasicPiece s

/-- One piece of a multi-line basic string: also quotes, tabs and line breaks, and a backslash at the end of a line; but `\t` is not an
escape here. -/
inductive MlBasicPiece : Str → Prop where
  | char (c : Char) : plain c ∨ c = '\t' → c ≠ '\\' → MlBasicPiece [c]
  | esc (c : Char) : c ∈ lit% "\"\\/bfnr" → MlBasicPiece ['\\', c]
  | uni {s : Str} : UnicodeEsc s → MlBasicPiece s
  | lf : MlBasicPiece ['\n']
  | crlf : MlBasicPiece ['\r', '\n']
  | bslf : MlBasicPiece ['\\', '\n']
  | bscrlf : MlBasicPiece ['\\', '\r', '\n']

/-- One piece of a literal string. -/
inductive LiteralPiece : Str → Prop where
  | char (c : Char) : plain c → c ≠ '\'' → LiteralPiece [c]

/-- One piece of a multi-line literal string. -/
inductive MlLiteralPiece : Str → Prop where
  | char (c : Char) : plain c → MlLiteralPiece [c]
  | lf : MlLiteralPiece ['\n']
  | crlf : MlLiteralPiece ['\r', '\n']

/-- The pieces of a string of each kind. -/
def StrType.Piece : StrType → Str → Prop
  | .basic => BasicPiece
  | .mlBasic => MlBasicPiece
  | .literal => LiteralPiece
  | .mlLiteral => MlLiteralPiece

/-- The closing (and opening) quotes. -/
def StrType.quotes : StrType → Str
  | .basic => lit% "\""
  | .mlBasic => lit% "\"\"\""
  | .literal => lit% "'"
  | .mlLiteral => lit% "'''"

/-- Contents that do not end early: wherever the contents are cut between pieces, what remains does not begin with the closing quotes. -/
def StrType.NoEarlyEnd (t : StrType) (s : Str) : Prop :=
  ∀ u v, s = u ++ v → v ≠ [] → Pieces t.Piece u → ¬ t.quotes <+: v ++ t.quotes

end Tomllib

namespace Tomllib

/-! ## Numbers -/

/-- A decimal digit (of any script, as in Rust's `\d`). -/
def anyDigit (c : Char) : Prop := inCls Rx.digitRanges c = true

/-- A digit, possibly after an underscore. -/
inductive DigitGroup : Str → Prop where
  | digit (c : Char) : anyDigit c → DigitGroup [c]
  | under (c : Char) : anyDigit c → DigitGroup ['_', c]

/-- An unsigned integer: one digit, or several without a leading zero, with single underscores between digits. -/
inductive Unsigned : Str → Prop where
  | one (c : Char) : anyDigit c → Unsigned [c]
  | many (c : Char) (u s : Str) : 49 ≤ c.toNat → c.toNat ≤ 57 → DigitGroup u → Pieces DigitGroup s → Unsigned (c :: (u ++ s))

/-- Possibly a sign before. -/
inductive Signed (p : Str → Prop) : Str → Prop where
  | plain {s} : p s → Signed p s
  | plus {s} : p s → Signed p ('+' :: s)
  | minus {s} : p s → Signed p ('-' :: s)

/-- The text of an integer. -/
def IntegerText : Str → Prop := Signed Unsigned

/-- A dot and digits. -/
inductive Fraction : Str → Prop where
  | mk (c : Char) (s : Str) : anyDigit c → Pieces DigitGroup s → Fraction ('.' :: c :: s)

/-- The letter `e` and an integer. -/
inductive Exponent : Str → Prop where
  | mk (e : Char) (s : Str) : e = 'e' ∨ e = 'E' → IntegerText s → Exponent (e :: s)

/-- The text of a float: an integer followed by a fraction, an exponent, or both. -/
inductive FloatText : Str → Prop where
  | both {i f e} : IntegerText i → Fraction f → Exponent e → FloatText (i ++ f ++ e)
  | frac {i f} : IntegerText i → Fraction f → FloatText (i ++ f)
  | exp {i e} : IntegerText i → Exponent e → FloatText (i ++ e)

/-! ## Blanks, comments, keys -/

/-- Blanks and line breaks. -/
inductive SpacePiece : Str → Prop where
  | blank : SpacePiece [' ']
  | tab : SpacePiece ['\t']
  | lf : SpacePiece ['\n']
  | crlf : SpacePiece ['\r', '\n']

/-- Any number of them. -/
def Spaces : Str → Prop := Pieces SpacePiece

/-- What a comment may contain: tabs, and characters from the space to U+10FFF. -/
def CommentText (s : Str) : Prop := ∀ c ∈ s, c = '\t' ∨ (0x20 ≤ c.toNat ∧ c.toNat ≤ 0x10FFF)

/-- The characters of bare keys: ASCII letters and digits, dashes and underscores. -/
def isBareChar (c : Char) : Bool := c.isAlphanum || c = '-' || c = '_'

/-- A bare key, or a quoted key with its quotes. -/
def KeyWf (k : Str) : Prop :=
  (k ≠ [] ∧ ∀ c ∈ k, isBareChar c = true) ∨ ∃ s, s ≠ [] ∧ Pieces BasicPiece s ∧ k = lit% "\"" ++ s ++ lit% "\""

end Tomllib
