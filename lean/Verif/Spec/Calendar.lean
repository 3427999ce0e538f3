import Verif.Base
/-!
# Calendar dates and clock times

A specification that does not mention the program.
-/

namespace Tomllib

/-- Leap years of the Gregorian calendar. -/
def isLeap (y : Nat) : Bool := (y % 4 == 0 && y % 100 != 0) || y % 400 == 0

/-- The number of days of a month. -/
def daysIn (y : Nat) : Nat → Nat
  | 1 => 31 | 2 => if isLeap y then 29 else 28 | 3 => 31 | 4 => 30 | 5 => 31 | 6 => 30
  | 7 => 31 | 8 => 31 | 9 => 30 | 10 => 31 | 11 => 30 | 12 => 31 | _ => 0

/-- A day of the calendar, in a year of at most four digits. -/
def IsDate (y m d : Nat) : Prop := 1 ≤ y ∧ y ≤ 9999 ∧ 1 ≤ m ∧ m ≤ 12 ∧ 1 ≤ d ∧ d ≤ daysIn y m

/-- A time of day; there are no leap seconds. -/
def IsTime (h m s : Nat) : Prop := h ≤ 23 ∧ m ≤ 59 ∧ s ≤ 59

instance (y m d : Nat) : Decidable (IsDate y m d) := inferInstanceAs (Decidable (_ ∧ _))
instance (h m s : Nat) : Decidable (IsTime h m s) := inferInstanceAs (Decidable (_ ∧ _))

/-- The number that a list of digits denotes. -/
def decVal (s : Str) : Nat := s.foldl (fun n c => 10 * n + (c.toNat - 48)) 0

/-- The text is a number: digits, possibly after a plus sign. -/
def Numeral (s : Str) (n : Nat) : Prop :=
  ∃ ds : Str, ds ≠ [] ∧ (∀ c ∈ ds, 48 ≤ c.toNat ∧ c.toNat ≤ 57) ∧ (s = ds ∨ s = '+' :: ds) ∧ n = decVal ds

end Tomllib
