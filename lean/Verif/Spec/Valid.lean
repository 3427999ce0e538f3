import Verif.Spec.Calendar
import Verif.Spec.Text
/-!
# Valid values

Which dates and times exist, and which scalars are valid, without the checks of the program.
-/

namespace Tomllib

/-- The number that a text of digits denotes; there may be a plus sign before them. -/
def numeral (s : Str) : Option Nat :=
  let ds := if s.head? = some '+' then s.tail else s
  if ds ≠ [] ∧ ∀ c ∈ ds, 48 ≤ c.toNat ∧ c.toNat ≤ 57 then some (decVal ds) else none

/-- Four, two and two characters that name a day of the calendar. -/
def Date.real (d : Date) : Bool :=
  match numeral d.year, numeral d.month, numeral d.day with
  | some y, some m, some k => d.year.length = 4 ∧ d.month.length = 2 ∧ d.day.length = 2 ∧ IsDate y m k
  | _, _, _ => false

/-- Two and two characters that are hours and minutes. -/
def TimeOffset.real : TimeOffset → Bool
  | .zulu => true
  | .time o => match numeral o.hour, numeral o.minute with
    | some h, some m => o.hour.length = 2 ∧ o.minute.length = 2 ∧ h ≤ 23 ∧ m ≤ 59
    | _, _ => false

/-- A fraction of a second is a number below 2^64. -/
def fractionReal (f : Str) : Bool :=
  match numeral f with
  | some n => n < 2 ^ 64
  | none => false

/-- Two, two and two characters that are a time of day, with a fraction and an offset that are in order. -/
def Time.real (t : Time) : Bool :=
  (match numeral t.hour, numeral t.minute, numeral t.second with
  | some h, some m, some s => t.hour.length = 2 ∧ t.minute.length = 2 ∧ t.second.length = 2 ∧ IsTime h m s
  | _, _, _ => false) &&
  t.fraction.all fractionReal && t.offset.all TimeOffset.real

/-- The date exists, and so does the time, if there is one. -/
def DateTime.real (d : DateTime) : Bool := d.date.real && d.time.all Time.real

/-- A valid scalar: an integer or a float begins with the text of one (what follows is not looked at), dates and times exist, the contents of a string are made of
the pieces allowed in it. -/
def Value.Valid : Value → Prop
  | .int s => ∃ u w, s = u ++ w ∧ IntegerText u
  | .float s => ∃ u w, s = u ++ w ∧ FloatText u
  | .dt d => d.real = true
  | .str s t => Pieces t.Piece s
  | _ => True

open Classical in
/-- As a truth value. -/
noncomputable def Value.valid (v : Value) : Bool := decide v.Valid

end Tomllib
