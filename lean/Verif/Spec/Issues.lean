import Verif.Spec.Entries
import Verif.Spec.Valid
/-!
# What is wrong with a document

The three kinds of errors other than bad table headers, read off the entries of a document.
-/

namespace Tomllib

/-- Values of keys that occurred before, in the order of the text. -/
def repeats (seen : List Str) : List (Str × Entry) → List (Str × Value)
  | [] => []
  | (k, .val t) :: l => if k ∈ seen then (k, t.value) :: repeats (seen ++ [k]) l else repeats (seen ++ [k]) l
  | (k, .header) :: l => repeats (seen ++ [k]) l

/-- The entry is a date or time that does not exist: its key and its text. -/
def badDate : Str × Entry → Option (Str × Str)
  | (k, .val (.leaf (.dt d))) => if d.real then none else some (k, d.text)
  | _ => none

/-- The kind of a value, as far as arrays care. -/
def VT.kind : VT → ArrayType
  | .leaf (.int _) => .int
  | .leaf (.float _) => .float
  | .leaf (.bool _) => .bool
  | .leaf (.dt _) => .dt
  | .leaf (.str _ _) => .str
  | .arr _ _ _ => .arr
  | .itab _ _ => .itab

/-- The kinds of the elements. -/
def Elems.kinds : Elems → List ArrayType
  | .nil => []
  | .cons v _ _ r => v.kind :: r.kinds

/-- The entry is an array with elements of different kinds. -/
def isMixed : Entry → Bool
  | .val (.arr es _ _) => es.kinds.any fun k => es.kinds.any fun k' => k ≠ k'
  | _ => false

/-- The key and the value of a `DuplicateKey` error. -/
def ParseError.dup? : ParseError → Option (Str × Value)
  | .duplicateKey k _ _ v => some (k, v)
  | _ => none
/-- The key and the text of an `InvalidDateTime` error. -/
def ParseError.date? : ParseError → Option (Str × Str)
  | .invalidDateTime k _ _ s => some (k, s)
  | _ => none
/-- The key of a `MixedArray` error. -/
def ParseError.mixed? : ParseError → Option Str
  | .mixedArray k _ _ => some k
  | _ => none
/-- The key of an `InvalidTable` error. -/
def ParseError.table? : ParseError → Option Str
  | .invalidTable k _ _ _ => some k
  | _ => none

end Tomllib
