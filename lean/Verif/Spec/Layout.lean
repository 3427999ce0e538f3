import Verif.Ast
/-!
# How the parts of a document are written

The text of dates and times, strings, comments, commas, gaps and table headers.
-/

namespace Tomllib

/-- `+hh:mm` or `-hh:mm`. -/
def OffsetAmount.text (o : OffsetAmount) : Str :=
  (match o.posNeg with
  | .pos => lit% "+"
  | .neg => lit% "-") ++ o.hour ++ lit% ":" ++ o.minute

/-- `Z` or an amount. -/
def TimeOffset.text : TimeOffset → Str
  | .zulu => lit% "Z"
  | .time o => o.text

/-- `yyyy-mm-dd` -/
def Date.text (d : Date) : Str := d.year ++ lit% "-" ++ d.month ++ lit% "-" ++ d.day

/-- A dot and the digits, if there is a fraction. -/
def fracText : Option Str → Str
  | none => []
  | some f => lit% "." ++ f

/-- The offset, if there is one. -/
def offText : Option TimeOffset → Str
  | none => []
  | some o => o.text

/-- `Thh:mm:ss` with the fraction and the offset -/
def Time.text (t : Time) : Str :=
  lit% "T" ++ t.hour ++ lit% ":" ++ t.minute ++ lit% ":" ++ t.second ++ fracText t.fraction ++ offText t.offset

/-- The date, and the time if there is one. -/
def DateTime.text (d : DateTime) : Str :=
  d.date.text ++ match d.time with
  | some t => t.text
  | none => []

/-- `true` or `false` -/
def boolText : Bool → Str
  | true => lit% "true"
  | false => lit% "false"

/-- A string with its quotes. -/
def StrType.quoted : StrType → Str → Str
  | .basic, s => lit% "\"" ++ s ++ lit% "\""
  | .mlBasic, s => lit% "\"\"\"" ++ s ++ lit% "\"\"\""
  | .literal, s => lit% "'" ++ s ++ lit% "'"
  | .mlLiteral, s => lit% "'''" ++ s ++ lit% "'''"

/-- A comment. -/
def remark (text : Str) : Str := lit% "#" ++ text

/-- Blanks and line breaks, and perhaps a comment between them. -/
def CNL.text : CNL → Str
  | .comment pre text nls => pre ++ remark text ++ nls
  | .newlines n => n

/-- A gap in an array: blanks, line breaks and comments. -/
def gapText : List CNL → Str
  | [] => []
  | c :: cs => c.text ++ gapText cs

/-- A comma and the blanks around it, if there is one. -/
def commaText : Option WSSep → Str
  | none => []
  | some s => s.ws1 ++ lit% "," ++ s.ws2

/-- A dot, with the blanks around it, and a name. -/
def WSKeySep.text (k : WSKeySep) : Str := k.ws.ws1 ++ lit% "." ++ k.ws.ws2 ++ k.key

/-- The names of a table header after the first. -/
def subkeysText : List WSKeySep → Str
  | [] => []
  | k :: ks => k.text ++ subkeysText ks

/-- The names of a table header, with blanks before and after them. -/
def Table.text (t : Table) : Str :=
  match t.keys with
  | [] => []
  | k :: ks => k.ws.ws1 ++ k.key ++ subkeysText ks ++ k.ws.ws2

/-- `[names]` or `[[names]]` -/
def TableType.text : TableType → Str
  | .std t => lit% "[" ++ t.text ++ lit% "]"
  | .arr t => lit% "[[" ++ t.text ++ lit% "]]"

end Tomllib
