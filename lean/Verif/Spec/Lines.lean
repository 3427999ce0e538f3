import Verif.Spec.Syntax
import Verif.Spec.Results
import Verif.Spec.Issues
/-!
# Counting lines

The line breaks between the lines of a document and those inside multi-line strings are counted; those between the elements of an array or the
pairs of an inline table are not.
-/

namespace Tomllib

/-- The number of line feeds. -/
def nls (s : Str) : Nat := s.count '\n'

/-- Line feeds counted while a scalar is read. -/
def Scalar.counted : Scalar → Nat
  | .str s .mlBasic => nls s
  | .str s .mlLiteral => nls s
  | _ => 0

mutual
/-- Line feeds counted while a value is read: those inside multi-line strings. -/
def VT.counted : VT → Nat
  | .leaf s => s.counted
  | .arr es _ _ => es.counted
  | .itab kvs _ => kvs.counted
def Elems.counted : Elems → Nat
  | .nil => 0
  | .cons v _ _ r => v.counted + r.counted
def Pairs.counted : Pairs → Nat
  | .nil => 0
  | .cons _ _ v _ _ r => v.counted + r.counted
end

/-- Line feeds counted in a line. -/
def ET.counted : ET → Nat
  | .kv _ _ _ v _ _ => v.counted
  | _ => 0

/-- Number of lines a line break counts. -/
def nlCount (nl : Str) : Nat := if nl = [] then 0 else 1

/-- Line feeds counted in a document: the line breaks, and those inside multi-line strings. -/
def linesCounted : List (Str × ET) → Nat
  | [] => 0
  | (nl, e) :: es => nlCount nl + e.counted + linesCounted es

/-- Does the text contain three quotes in a row? -/
def TripleQuotes (s : Str) : Prop := lit% "\"\"\"" <:+: s ∨ lit% "'''" <:+: s

/-- An error without the pairs that an `InvalidTable` error collects from the lines after it. -/
def ParseError.lessPairs : ParseError → ParseError
  | .invalidTable k l c _ => .invalidTable k l c []
  | e => e

/-- The errors a line can cause: headers those about tables, pairs the others. -/
def ET.mayCause : ET → ParseError → Prop
  | .blank _, _ => False
  | .comment _ _, _ => False
  | .kv _ _ _ _ _ _, e => e.table? = none
  | .table _ _ _ _, e => e.table? ≠ none

end Tomllib
