import Verif.Types
import Verif.Spec.Calendar
/-!
# What a constructor that refuses its arguments says
-/

namespace Tomllib.Said

/-- The conditions are looked at one after the other: the first that does not hold gives the message; if all hold, the result is the value. -/
def Answers {α : Type} : List (Prop × Str) → α → Except Str α → Prop
  | [], v, r => r = .ok v
  | (ok, msg) :: rest, v, r => (ok → Answers rest v r) ∧ (¬ ok → r = .error msg)

/-- Year, month and day as texts. -/
def DateOk (y m d : Str) : Prop :=
  y.length = 4 ∧ m.length = 2 ∧ d.length = 2 ∧ ∃ Y M D, Numeral y Y ∧ Numeral m M ∧ Numeral d D ∧ IsDate Y M D

/-- Hour, minute, second and fraction as texts. -/
def TimeOk (h m s : Str) (f : Option Str) : Prop :=
  h.length = 2 ∧ m.length = 2 ∧ s.length = 2 ∧ (∃ H M S, Numeral h H ∧ Numeral m M ∧ Numeral s S ∧ IsTime H M S) ∧
  ∀ x, f = some x → ∃ F, Numeral x F ∧ F < 2 ^ 64

/-- Hours and minutes of an offset as texts. -/
def OffsetOk (h m : Str) : Prop := h.length = 2 ∧ m.length = 2 ∧ ∃ H M, Numeral h H ∧ Numeral m M ∧ H ≤ 23 ∧ M ≤ 59

/-- The message about a date. -/
abbrev dateMsg : Str := lit% "Error validating Date."
/-- The message about a time. -/
abbrev timeMsg : Str := lit% "Error validating Time."
/-- The message about the sign of an offset. -/
abbrev signMsg : Str := lit% "pos_neg value is neither a '+' or a '-'."
/-- The message about the hours and minutes of an offset. -/
abbrev offsetMsg : Str := lit% "Error validating TimeOffsetAmount."

/-- The sign of an offset. -/
def sign (pn : Str) : PosNeg := if pn = lit% "+" then .pos else .neg

/-- What is true of the result where only one thing can be wrong: the value if `o` gives one, otherwise the message followed by the argument. -/
def Quotes (msg s : Str) (o : Option Value) (r : Except Str Value) : Prop :=
  (∀ v, o = some v → r = .ok v) ∧ (o = none → r = .error (msg ++ s))

end Tomllib.Said
