import Verif.Api
import Verif.Spec.Syntax
import Verif.Spec.Taken
/-!
# Where reading stops
-/

namespace Tomllib

/-- The text begins with a key, an equals sign and the beginning of an array or inline table. -/
def BeginsValue (bad : Str) : Prop :=
  ∃ k w1 w2 c t, KeyWf k ∧ Blank w1 ∧ Blank w2 ∧ bad = k ++ w1 ++ lit% "=" ++ w2 ++ c :: t ∧ (c = '[' ∨ c = '{')

/-- Lines taken after the first, in a text that goes on with `r`. -/
def LinesUpTo : List (Str × ET) → Str → Prop
  | [], _ => True
  | l :: ls, r => (l.1 = lit% "\n" ∨ l.1 = lit% "\r\n") ∧ l.2.taken (linesText ls ++ r) ∧ LinesUpTo ls r

/-- Lines taken at the beginning of a text that goes on with `r`: as `DocTaken`, but what is taken of a line may depend on `r`. -/
def DocUpTo : List (Str × ET) → Str → Prop
  | [], _ => False
  | l :: ls, r => l.1 = [] ∧ l.2.taken (linesText ls ++ r) ∧ LinesUpTo ls r

/-- Children that were added to: more names after the old ones, or a larger count. -/
def Children.grown : Children → Children → Prop
  | .keys a, .keys b => a <+: b
  | .count a, .count b => a ≤ b
  | _, _ => False

end Tomllib
