import Verif.Ast
import Verif.Spec.Layout
import Verif.Spec.Text
/-!
# Syntax trees of documents

A specification of what a document is, independent of the parser: a tree with every blank, comment and separator, its text, and the value
it denotes.  What the leaves may be is in `Spec/Text`.
-/

namespace Tomllib

/-- A scalar as written. -/
inductive Scalar where
  | int (s : Str)
  | float (s : Str)
  | bool (b : Bool)
  | dt (d : DateTime)
  | str (s : Str) (t : StrType)
  deriving DecidableEq, Repr

/-- Its text. -/
def Scalar.text : Scalar → Str
  | .int s => s
  | .float s => s
  | .bool b => boolText b
  | .dt d => d.text
  | .str s t => t.quoted s

/-- The value it denotes: the characters as written, without quotes. -/
def Scalar.value : Scalar → Value
  | .int s => .int s
  | .float s => .float s
  | .bool b => .bool b
  | .dt d => .dt d
  | .str s t => .str s t

/-- The cell that holds it. -/
def Scalar.cell : Scalar → TVal
  | .int s => .int s
  | .float s => .float s
  | .bool b => .bool b
  | .dt d => .dt d
  | .str s t => .str s t

mutual
/-- A value with its layout. -/
inductive VT where
  | leaf (s : Scalar)
  | arr (es : Elems) (c1 c2 : List CNL)
  | itab (kvs : Pairs) (ws : WSSep)
/-- The elements of an array, each followed by an optional comma and comments. -/
inductive Elems where
  | nil
  | cons (v : VT) (sep : Option WSSep) (cn : List CNL) (rest : Elems)
/-- The pairs of an inline table. -/
inductive Pairs where
  | nil
  | cons (key : Str) (ws : WSSep) (v : VT) (sep : Option WSSep) (cn : List CNL) (rest : Pairs)
end

mutual
/-- The text of a value. -/
def VT.text : VT → Str
  | .leaf s => s.text
  | .arr es c1 c2 => lit% "[" ++ gapText c1 ++ es.text ++ gapText c2 ++ lit% "]"
  | .itab kvs ws => lit% "{" ++ ws.ws1 ++ kvs.text ++ ws.ws2 ++ lit% "}"
def Elems.text : Elems → Str
  | .nil => []
  | .cons v sep cn r => v.text ++ commaText sep ++ gapText cn ++ r.text
def Pairs.text : Pairs → Str
  | .nil => []
  | .cons k ws v sep cn r => k ++ ws.ws1 ++ lit% "=" ++ ws.ws2 ++ v.text ++ commaText sep ++ gapText cn ++ r.text
end

mutual
/-- The value denoted, without layout. -/
def VT.value : VT → Value
  | .leaf s => s.value
  | .arr es _ _ => .arr es.values
  | .itab kvs _ => .itab kvs.values
def Elems.values : Elems → List Value
  | .nil => []
  | .cons v _ _ r => v.value :: r.values
def Pairs.values : Pairs → List (Str × Value)
  | .nil => []
  | .cons k _ v _ _ r => (k, v.value) :: r.values
end

mutual
/-- Does an empty inline table occur in it? -/
def VT.hasEmptyTable : VT → Bool
  | .leaf _ => false
  | .arr es _ _ => es.hasEmptyTable
  | .itab .nil _ => true
  | .itab (.cons _ _ v _ _ r) _ => v.hasEmptyTable || r.hasEmptyTable
def Elems.hasEmptyTable : Elems → Bool
  | .nil => false
  | .cons v _ _ r => v.hasEmptyTable || r.hasEmptyTable
def Pairs.hasEmptyTable : Pairs → Bool
  | .nil => false
  | .cons _ _ v _ _ r => v.hasEmptyTable || r.hasEmptyTable
end

/-- One line of a document. -/
inductive ET where
  | blank (ws : Str)
  | comment (ws : Str) (c : Str)
  | kv (ws1 : Str) (key : Str) (sep : WSSep) (v : VT) (ws2 : Str) (c : Option Str)
  | table (ws1 : Str) (t : TableType) (ws2 : Str) (c : Option Str)

/-- A comment, if there is one. -/
def optComment : Option Str → Str
  | none => []
  | some c => remark c

/-- The text of a line. -/
def ET.text : ET → Str
  | .blank w => w
  | .comment w c => w ++ remark c
  | .kv w1 k s v w2 c => w1 ++ k ++ s.ws1 ++ lit% "=" ++ s.ws2 ++ v.text ++ w2 ++ optComment c
  | .table w1 t w2 c => w1 ++ t.text ++ w2 ++ optComment c

/-- Does an empty inline table occur in the line? -/
def ET.hasEmptyTable : ET → Bool
  | .kv _ _ _ v _ _ => v.hasEmptyTable
  | _ => false

/-- A document is a list of lines, each with the line break before it (empty for the first). Its text: -/
def linesText : List (Str × ET) → Str
  | [] => []
  | (nl, e) :: es => nl ++ e.text ++ linesText es

/-- Does an empty inline table occur in the document? -/
def hasEmptyTable (ls : List (Str × ET)) : Bool := ls.any fun l => l.2.hasEmptyTable

/-! ## Lexical well-formedness -/

/-- Exactly `n` ASCII digits. -/
def Digits (n : Nat) (s : Str) : Prop := s.length = n ∧ ∀ c ∈ s, 48 ≤ c.toNat ∧ c.toNat ≤ 57

/-- `dd:dd` with a sign, or `Z`. -/
def TimeOffset.shape : TimeOffset → Prop
  | .zulu => True
  | .time o => Digits 2 o.hour ∧ Digits 2 o.minute

/-- Digits in the right number; values are not constrained here. -/
def Time.shape (t : Time) : Prop :=
  Digits 2 t.hour ∧ Digits 2 t.minute ∧ Digits 2 t.second ∧
  (∀ f, t.fraction = some f → f ≠ [] ∧ Digits f.length f) ∧ (∀ o, t.offset = some o → o.shape)

/-- `dddd-dd-dd`. -/
def Date.shape (d : Date) : Prop := Digits 4 d.year ∧ Digits 2 d.month ∧ Digits 2 d.day

/-- A date, with or without a time. -/
def DateTime.shape (d : DateTime) : Prop := d.date.shape ∧ ∀ t, d.time = some t → t.shape

/-- A well-formed scalar. -/
def Scalar.wf : Scalar → Prop
  | .int s => IntegerText s
  | .float s => FloatText s
  | .bool _ => True
  | .dt d => d.shape
  | .str s t => Pieces t.Piece s

/-- Blanks. -/
def Blank (s : Str) : Prop := ∀ c ∈ s, c = ' ' ∨ c = '\t'

/-- Blanks around a separator. -/
def WSSep.wf (s : WSSep) : Prop := Blank s.ws1 ∧ Blank s.ws2

/-- Blanks around a comma, if there is one. -/
def SepWf (s : Option WSSep) : Prop := ∀ w, s = some w → w.wf

/-- Blanks and line breaks, possibly with a comment. -/
def CNL.wf : CNL → Prop
  | .comment pre text nls => Spaces pre ∧ CommentText text ∧ Spaces nls
  | .newlines n => Spaces n

/-- All of them. -/
def CnlsWf (cs : List CNL) : Prop := ∀ c ∈ cs, c.wf

mutual
/-- A well-formed value. -/
def VT.wf : VT → Prop
  | .leaf s => s.wf
  | .arr es c1 c2 => CnlsWf c1 ∧ es.wf ∧ CnlsWf c2
  | .itab kvs ws => ws.wf ∧ kvs.wf
def Elems.wf : Elems → Prop
  | .nil => True
  | .cons v sep cn r => v.wf ∧ SepWf sep ∧ CnlsWf cn ∧ r.wf
def Pairs.wf : Pairs → Prop
  | .nil => True
  | .cons k ws v sep cn r => KeyWf k ∧ ws.wf ∧ v.wf ∧ SepWf sep ∧ CnlsWf cn ∧ r.wf
end

/-- A well-formed comment. -/
def CommentWf (c : Option Str) : Prop := ∀ t, c = some t → CommentText t

/-- A well-formed table header. -/
def TableType.wf (t : TableType) : Prop :=
  t.table.keys ≠ [] ∧ ∀ k ∈ t.table.keys, k.ws.wf ∧ KeyWf k.key

/-- A well-formed line. -/
def ET.wf : ET → Prop
  | .blank w => Blank w
  | .comment w c => Blank w ∧ CommentWf (some c)
  | .kv w1 k s v w2 c => Blank w1 ∧ KeyWf k ∧ s.wf ∧ v.wf ∧ Blank w2 ∧ CommentWf c
  | .table w1 t w2 c => Blank w1 ∧ t.wf ∧ Blank w2 ∧ CommentWf c

/-- Well-formed lines after the first: each begins with a line break. -/
def LinesWf (ls : List (Str × ET)) : Prop := ∀ l ∈ ls, (l.1 = lit% "\n" ∨ l.1 = lit% "\r\n") ∧ l.2.wf

/-- A well-formed document: at least one line, the first without a line break before it. -/
def DocWf : List (Str × ET) → Prop
  | [] => False
  | l :: ls => l.1 = [] ∧ l.2.wf ∧ LinesWf ls

/-! ## Signs of tables in a text -/

/-- `{`, blanks, `}` occurs in the text. -/
def HasBraces (s : Str) : Prop := ∃ pre w post, s = pre ++ lit% "{" ++ w ++ lit% "}" ++ post ∧ Blank w

/-- A line of the text begins, after blanks, with `[`. -/
def HasHeaderLine (i : Str) : Prop := ∃ a w b, i = a ++ w ++ lit% "[" ++ b ∧ Blank w ∧ (a = [] ∨ ∃ a', a = a' ++ lit% "\n")

/-- Every `[` is the first character of its line, apart from blanks. -/
def BracketsFirst (i : Str) : Prop := ∀ a b, i = a ++ lit% "[" ++ b → ∃ a' w, a = a' ++ w ∧ Blank w ∧ (a' = [] ∨ ∃ x, a' = x ++ lit% "\n")

/-- A line of the text begins, after blanks, with `[[`. -/
def HasArrayHeaderLine (i : Str) : Prop := ∃ a w b, i = a ++ w ++ lit% "[[" ++ b ∧ Blank w ∧ (a = [] ∨ ∃ a', a = a' ++ lit% "\n")

end Tomllib
