import Verif.Nom
import Verif.Spec.Syntax
/-!
# What a document says

The key/value pairs and the table headers of a document, in order, without blanks, line breaks, empty lines and comments.
-/

namespace Tomllib

/-- A pair, or the header of a table (or of an element of an array of tables) with its names. -/
inductive Item where
  | pair (k : Str) (v : Value)
  | header (array : Bool) (names : List Str)

/-- What a line says. -/
def ET.item? : ET → Option Item
  | .kv _ k _ v _ _ => some (.pair k v.value)
  | .table _ (.std t) _ _ => some (.header false (t.keys.map (·.key)))
  | .table _ (.arr t) _ _ => some (.header true (t.keys.map (·.key)))
  | _ => none

/-- What the lines say. -/
def content (ls : List (Str × ET)) : List Item := ls.filterMap fun l => l.2.item?

/-- The error without its position. -/
def ParseError.bare : ParseError → ParseError
  | .mixedArray k _ _ => .mixedArray k 0 0
  | .duplicateKey k _ _ v => .duplicateKey k 0 0 v
  | .invalidTable k _ _ m => .invalidTable k 0 0 m
  | .invalidDateTime k _ _ s => .invalidDateTime k 0 0 s

end Tomllib
