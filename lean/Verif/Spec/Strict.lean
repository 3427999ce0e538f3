import Verif.Spec.Syntax
import Verif.Spec.Text
/-!
# Properly written documents

The documents the program is meant to read, described by their syntax trees and without the patterns of the program: elements of arrays and
inline tables are set apart by commas, blanks, line breaks or comments, a comment inside a value ends with a line break, and multi-line
strings do not contain their closing quotes.  Blanks, line breaks and comments between two tokens can be attributed to the tree in several
ways; the conditions below fix one of them.
-/

namespace Tomllib

/-- Beginning with a line break. -/
def Broken (s : Str) : Prop := ∃ w, Spaces w ∧ (s = '\n' :: w ∨ s = '\r' :: '\n' :: w)

/-- Further comments, each with the line breaks and blanks after it. -/
def MoreComments : List CNL → Prop
  | [] => True
  | .comment pre t nls :: cs => pre = [] ∧ CommentText t ∧ Broken nls ∧ MoreComments cs
  | .newlines _ :: _ => False

/-- What may stand between two tokens inside a value: blanks and line breaks, and comments that end with a line break. -/
def Gap : List CNL → Prop
  | [.newlines w] => Spaces w
  | .comment pre t nls :: cs => Spaces pre ∧ CommentText t ∧ Broken nls ∧ MoreComments cs
  | _ => False

/-- A properly written scalar. -/
def Scalar.strict : Scalar → Prop
  | .int s => IntegerText s
  | .float s => FloatText s
  | .bool _ => True
  | .dt d => d.shape
  | .str s t => Pieces t.Piece s ∧ t.NoEarlyEnd s

/-- The text does not begin with a blank. -/
def NoBlank (s : Str) : Prop := ∀ x, s ≠ ' ' :: x ∧ s ≠ '\t' :: x

/-- A comma with blanks around, and what follows (blanks after the comma belong to the comma). -/
def Apart (sep : Option WSSep) (cn : List CNL) : Prop := SepWf sep ∧ Gap cn ∧ (sep.isSome → NoBlank (gapText cn))

mutual
/-- A properly written value. -/
def VT.strict : VT → Prop
  | .leaf s => s.strict
  | .arr es c1 c2 => Gap c1 ∧ es.strict ∧ c2 = [.newlines []]
  | .itab kvs ws => Blank ws.ws1 ∧ kvs.strict ∧ ws.ws2 = []
/-- Elements are set apart by a comma, or by blanks, line breaks and comments. -/
def Elems.strict : Elems → Prop
  | .nil => True
  | .cons v sep cn r => v.strict ∧ Apart sep cn ∧ (r ≠ .nil → sep.isSome ∨ gapText cn ≠ []) ∧ r.strict
def Pairs.strict : Pairs → Prop
  | .nil => True
  | .cons k ws v sep cn r =>
    KeyWf k ∧ ws.wf ∧ v.strict ∧ Apart sep cn ∧ (r ≠ .nil → sep.isSome ∨ gapText cn ≠ []) ∧ r.strict
end

/-- A properly written table header. -/
def TableType.strict (t : TableType) : Prop :=
  t.table.keys ≠ [] ∧ ∀ k ∈ t.table.keys, k.ws.wf ∧ KeyWf k.key

/-- A properly written line. -/
def ET.strict : ET → Prop
  | .blank w => Blank w
  | .comment w c => Blank w ∧ CommentText c
  | .kv w1 k s v w2 c => Blank w1 ∧ KeyWf k ∧ s.wf ∧ v.strict ∧ Blank w2 ∧ CommentWf c
  | .table w1 t w2 c => Blank w1 ∧ t.strict ∧ Blank w2 ∧ CommentWf c

/-- Properly written lines after the first: each begins with a line break. -/
def LinesStrict (ls : List (Str × ET)) : Prop := ∀ l ∈ ls, (l.1 = lit% "\n" ∨ l.1 = lit% "\r\n") ∧ l.2.strict

/-- A properly written document: at least one line, the first without a line break before it. -/
def DocStrict : List (Str × ET) → Prop
  | [] => False
  | l :: ls => l.1 = [] ∧ l.2.strict ∧ LinesStrict ls

end Tomllib
