import Verif.Spec.Strict
/-!
# Which texts are read to the end

The reader goes through a text once, from left to right, and never takes back what it has read of a value.  So a text is read if it is the text of a
tree that is chosen at each place by the rules below; what follows in the text (`r` below) matters for the choice.  There is no other requirement:
elements of an array need not be set apart, for instance.
-/

namespace Tomllib

/-- The kinds of scalars in the order in which they are tried. -/
def Scalar.rank : Scalar → Nat
  | .dt _ => 0
  | .float _ => 1
  | .int _ => 2
  | .bool _ => 3
  | .str _ .mlLiteral => 4
  | .str _ .mlBasic => 5
  | .str _ .basic => 6
  | .str _ .literal => 7

/-- Which of two scalars is taken: the one whose kind is tried first; of the same kind, the longest, but of strings the shortest. -/
def Scalar.Precedes (s s' : Scalar) : Prop :=
  s.rank < s'.rank ∨ s.rank = s'.rank ∧ (s.rank < 4 → s'.text.length ≤ s.text.length) ∧ (4 ≤ s.rank → s.text.length ≤ s'.text.length)

/-- The scalar taken from the text of `s` followed by `r` is `s`. -/
def Scalar.taken (s : Scalar) (r : Str) : Prop := s.wf ∧ ∀ s' : Scalar, s'.wf → s'.text <+: s.text ++ r → s.Precedes s'

/-- A comment ends here: the text is at its end, or goes on with a character that is not allowed in comments. -/
def CommentEnds (i : Str) : Prop := ∀ c t, i = c :: t → ¬ CommentText [c]

/-- Further comments up to `j`, each with the line breaks and blanks after it. -/
def MoreTaken : List CNL → Str → Prop
  | [], _ => True
  | .comment pre t nls :: cs, j => pre = [] ∧ CommentText t ∧ Spaces nls ∧ CommentEnds (nls ++ gapText cs ++ j) ∧ MoreTaken cs j
  | .newlines _ :: _, _ => False

/-- What may stand before the token `j` inside a value: blanks and line breaks, and comments. -/
def GapTaken : List CNL → Str → Prop
  | [.newlines w], _ => Spaces w
  | .comment pre t nls :: cs, j => Spaces pre ∧ CommentText t ∧ Spaces nls ∧ CommentEnds (nls ++ gapText cs ++ j) ∧ MoreTaken cs j
  | _, _ => False

/-- A comma with blanks around, and what follows up to `j` (blanks after the comma belong to the comma). -/
def ApartTaken (sep : Option WSSep) (cn : List CNL) (j : Str) : Prop := SepWf sep ∧ GapTaken cn j ∧ (sep.isSome → NoBlank (gapText cn))

mutual
/-- The value taken from the text of the tree followed by `r` is the tree. -/
def VT.taken : VT → Str → Prop
  | .leaf s, r => s.taken r
  | .arr es c1 c2, r => GapTaken c1 (es.text ++ lit% "]" ++ r) ∧ es.taken (lit% "]" ++ r) ∧ c2 = [.newlines []]
  | .itab kvs ws, r => Blank ws.ws1 ∧ kvs.taken (lit% "}" ++ r) ∧ ws.ws2 = []
def Elems.taken : Elems → Str → Prop
  | .nil, _ => True
  | .cons v sep cn es, r => v.taken (commaText sep ++ gapText cn ++ es.text ++ r) ∧ ApartTaken sep cn (es.text ++ r) ∧ es.taken r
def Pairs.taken : Pairs → Str → Prop
  | .nil, _ => True
  | .cons k ws v sep cn kvs, r =>
    KeyWf k ∧ ws.wf ∧ v.taken (commaText sep ++ gapText cn ++ kvs.text ++ r) ∧ ApartTaken sep cn (kvs.text ++ r) ∧ kvs.taken r
end

/-- The line taken from the text of the line followed by `r`. -/
def ET.taken : ET → Str → Prop
  | .blank w, _ => Blank w
  | .comment w c, _ => Blank w ∧ CommentText c
  | .kv w1 k s v w2 c, r => Blank w1 ∧ KeyWf k ∧ s.wf ∧ v.taken (w2 ++ optComment c ++ r) ∧ Blank w2 ∧ CommentWf c
  | .table w1 t w2 c, _ => Blank w1 ∧ t.wf ∧ Blank w2 ∧ CommentWf c

/-- The lines taken after the first: each begins with a line break. -/
def LinesTaken : List (Str × ET) → Prop
  | [] => True
  | l :: ls => (l.1 = lit% "\n" ∨ l.1 = lit% "\r\n") ∧ l.2.taken (linesText ls) ∧ LinesTaken ls

/-- The lines of a text that is read to the end: at least one, the first without a line break before it. -/
def DocTaken : List (Str × ET) → Prop
  | [] => False
  | l :: ls => l.1 = [] ∧ l.2.taken (linesText ls) ∧ LinesTaken ls

end Tomllib
