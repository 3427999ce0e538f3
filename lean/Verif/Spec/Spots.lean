import Verif.Spec.Lines
import Verif.Spec.Tables
/-!
# What an error can be about

The places of a text that an error can be about, in the order of the text, with their lines: dates and times that do not exist, elements of an array that are of another kind
than the element before, values that are given to a key or an element, and headers. Lines are counted as in Spec/Lines.lean.
-/

namespace Tomllib

/-- What an error is about. -/
inductive Spot where
  /-- A date or time that does not exist. -/
  | date (text : Str)
  /-- An element of an array that is of another kind than the one before. -/
  | mixed
  /-- The value of a key or an element. -/
  | value (v : Value)
  /-- A header. -/
  | header
  deriving DecidableEq, Repr

/-- What an error says that it is about, and in which line. -/
def ParseError.spot : ParseError → Spot × Nat
  | .invalidDateTime _ l _ s => (.date s, l)
  | .mixedArray _ l _ => (.mixed, l)
  | .duplicateKey _ l _ v => (.value v, l)
  | .invalidTable _ l _ _ => (.header, l)

mutual
/-- The places inside of a value that begins in line `n`. -/
def VT.spots (n : Nat) : VT → List (Spot × Nat)
  | .leaf (.dt d) => if d.real then [] else [(.date d.text, n)]
  | .leaf _ => []
  | .arr es _ _ => es.spots .none n
  | .itab kvs _ => kvs.spots n
/-- The places in the rest of an array; `prev` is the kind of the element before, `.none` at the beginning. -/
def Elems.spots (prev : ArrayType) (n : Nat) : Elems → List (Spot × Nat)
  | .nil => []
  | .cons v _ _ r =>
    v.spots n ++ ((if prev = .none ∨ prev = v.kind then [] else [(.mixed, n + v.counted)]) ++ ([(.value v.value, n + v.counted)] ++ r.spots v.kind (n + v.counted)))
def Pairs.spots (n : Nat) : Pairs → List (Spot × Nat)
  | .nil => []
  | .cons _ _ v _ _ r => v.spots n ++ ([(.value v.value, n + v.counted)] ++ r.spots (n + v.counted))
end

/-- The places in a line. -/
def ET.spots (n : Nat) : ET → List (Spot × Nat)
  | .kv _ _ _ v _ _ => v.spots n ++ [(.value v.value, n + v.counted)]
  | .table _ _ _ _ => [(.header, n)]
  | _ => []

/-- The places in a text whose first line has the number `n`. -/
def docSpots (n : Nat) : List (Str × ET) → List (Spot × Nat)
  | [] => []
  | (nl, e) :: es => e.spots (n + nlCount nl) ++ docSpots (n + nlCount nl + e.counted) es

/-- The dates and times among them. -/
def datesOf (l : List (Spot × Nat)) : List (Str × Nat) := l.filterMap fun x => match x.1 with
  | .date s => some (s, x.2)
  | _ => none

end Tomllib
