import Verif.Api
/-!
# Results, and the parsers a program can have
-/

namespace Tomllib

/-- The line of an error. -/
def ParseError.line : ParseError → Nat
  | .mixedArray _ l _ => l
  | .duplicateKey _ l _ _ => l
  | .invalidTable _ l _ _ => l
  | .invalidDateTime _ l _ _ => l

/-- The column of an error. -/
def ParseError.col : ParseError → Nat
  | .mixedArray _ _ c => c
  | .duplicateKey _ _ c _ => c
  | .invalidTable _ _ c _ => c
  | .invalidDateTime _ _ c _ => c

/-- The errors a result carries. -/
def ParseResult.errs : ParseResult → List ParseError
  | .fullError e => e
  | .partialError _ _ _ e => e
  | _ => []

/-- The line number a result carries. -/
def ParseResult.line? : ParseResult → Option Nat
  | .partialRes _ l _ => some l
  | .partialError _ l _ _ => some l
  | .failure l _ => some l
  | _ => none

/-- The column a result carries. -/
def ParseResult.col? : ParseResult → Option Nat
  | .partialRes _ _ c => some c
  | .partialError _ _ c _ => some c
  | .failure _ c => some c
  | _ => none

/-- The result of a parse that read the whole text. -/
def ParseResult.whole (r : ParseResult) : Prop := r = .full ∨ ∃ e, r = .fullError e

/-- The children are a number or a list of names in which none is twice. -/
def Children.distinct : Children → Prop
  | .count _ => True
  | .keys ks => ks.Nodup

/-- The parsers a program can get hold of: it creates one, reads texts, assigns to keys, and changes children that it has been given. -/
inductive Reachable : Parser → Prop where
  | new : Reachable Parser.new
  | parse {p p' : Parser} {i : Str} {r : ParseResult} : Reachable p → p.parse i = .ok (p', r) → Reachable p'
  | set {p p' : Parser} {k : Str} {v : Value} {b : Bool} : Reachable p → p.setValue k v = .ok (p', b) → Reachable p'
  | children {p : Parser} {k : Str} {c : Children} : Reachable p → c.distinct → Reachable (p.putChildren k c)

/-- A text, or the panic of printing an empty inline table. -/
def textOr (e : Bool) (s : Str) : Out Str := if e then .panic .underflow else .ok s

end Tomllib
