import Verif.Api
/-!
# `==` on the public types: src/types.rs

Equality is derived for `ParseResult`, `ParseError`, `Value`, `StrType`, `Children` and `PosNeg`, and written by hand for the parts of a date-time.
A `Cow<str>` is compared as a string, an `Rc<RefCell<_>>` by what is in it.
-/

namespace Tomllib

/-- Derived, src/types.rs:113 -/
def StrType.eq : StrType → StrType → Bool
  | .basic, .basic => true
  | .mlBasic, .mlBasic => true
  | .literal, .literal => true
  | .mlLiteral, .mlLiteral => true
  | _, _ => false

/-- Derived, src/types.rs:1041 -/
def PosNeg.eq : PosNeg → PosNeg → Bool
  | .pos, .pos => true
  | .neg, .neg => true
  | _, _ => false

/-- src/types.rs:1109-1115 -/
def OffsetAmount.eq (a b : OffsetAmount) : Bool := a.posNeg.eq b.posNeg && a.hour == b.hour && a.minute == b.minute

/-- src/types.rs:1070-1078 -/
def TimeOffset.eq : TimeOffset → TimeOffset → Bool
  | .zulu, .zulu => true
  | .time i, .time j => if i.eq j then true else false
  | _, _ => false

/-- src/types.rs:1198-1204 -/
def Date.eq (a b : Date) : Bool := a.year == b.year && a.month == b.month && a.day == b.day

/-- `PartialEq` of `Option` (std). -/
def optEq {α : Type} (f : α → α → Bool) : Option α → Option α → Bool
  | some a, some b => f a b
  | none, none => true
  | _, _ => false

/-- src/types.rs:1312-1320 -/
def Time.eq (a b : Time) : Bool :=
  a.hour == b.hour && a.minute == b.minute && a.second == b.second && optEq (· == ·) a.fraction b.fraction && optEq TimeOffset.eq a.offset b.offset

/-- src/types.rs:1428-1433 -/
def DateTime.eq (a b : DateTime) : Bool := a.date.eq b.date && optEq Time.eq a.time b.time

mutual
/-- Derived, src/types.rs:90 -/
def Value.eq : Value → Value → Bool
  | .int a, .int b => a == b
  | .float a, .float b => a == b
  | .bool a, .bool b => a == b
  | .dt a, .dt b => a.eq b
  | .str a t, .str b u => a == b && t.eq u
  | .arr a, .arr b => Value.eqs a b
  | .itab a, .itab b => Value.eqKvs a b
  | _, _ => false
/-- `PartialEq` of `Vec` (std): the same length and equal elements. -/
def Value.eqs : List Value → List Value → Bool
  | [], [] => true
  | a :: as, b :: bs => a.eq b && Value.eqs as bs
  | _, _ => false
/-- The same for pairs. -/
def Value.eqKvs : List (Str × Value) → List (Str × Value) → Bool
  | [], [] => true
  | (k, a) :: as, (l, b) :: bs => (k == l && a.eq b) && Value.eqKvs as bs
  | _, _ => false
end

/-- Derived, src/types.rs:126 -/
def Children.eq : Children → Children → Bool
  | .count a, .count b => a == b
  | .keys a, .keys b => a == b
  | _, _ => false

/-- Is a pair in a map? -/
def pairIn (m : SMap Value) (k : Str) (v : Value) : Bool :=
  match m.get? k with
  | some w => v.eq w
  | none => false

/-- `PartialEq` of `HashMap` (std): as many pairs, and each pair of the one is in the other. -/
def mapEq (a b : SMap Value) : Bool := a.length == b.length && a.all fun x => pairIn b x.1 x.2

/-- Derived, src/types.rs:34 -/
def ParseError.eq : ParseError → ParseError → Bool
  | .mixedArray k l c, .mixedArray k' l' c' => k == k' && l == l' && c == c'
  | .duplicateKey k l c v, .duplicateKey k' l' c' v' => k == k' && l == l' && c == c' && v.eq v'
  | .invalidTable k l c m, .invalidTable k' l' c' m' => k == k' && l == l' && c == c' && mapEq m m'
  | .invalidDateTime k l c t, .invalidDateTime k' l' c' t' => k == k' && l == l' && c == c' && t == t'
  | _, _ => false

/-- The lists of errors of two results, compared as vectors. -/
def errorsEq : List ParseError → List ParseError → Bool
  | [], [] => true
  | a :: as, b :: bs => a.eq b && errorsEq as bs
  | _, _ => false

/-- Derived, src/types.rs:14 -/
def ParseResult.eq : ParseResult → ParseResult → Bool
  | .full, .full => true
  | .fullError es, .fullError es' => errorsEq es es'
  | .partialRes s l c, .partialRes s' l' c' => s == s' && l == l' && c == c'
  | .partialError s l c es, .partialError s' l' c' es' => s == s' && l == l' && c == c' && errorsEq es es'
  | .failure l c, .failure l' c' => l == l' && c == c'
  | _, _ => false

end Tomllib
