import Verif.Api
import Verif.Spec.Path
import Verif.Spec.Bad
/-!
# When a table header is a panic, and when it is refused

Said by what the parser answers that has read the lines before the header.
-/

namespace Tomllib

/-- The key of the table with these names. -/
def tableKey (N : List Str) : Str := keyOf [] (N.map .str)

/-- There is a value at the key (not only a table). -/
def Parser.filled (p : Parser) (k : Str) : Prop := ∃ v, p.getValue k = .ok (some v)

/-- Go down from the table `P` along the names `N`, as long as each name is listed among the children of the table before it; a table that does not exist is passed. The
way ends at a key whose children are counted, like those of an array. -/
def Parser.blocked (p : Parser) : List Str → List Str → Prop
  | _, [] => False
  | P, n :: N => match p.getChildren (tableKey P) with
    | some (.count _) => True
    | some (.keys l) => n ∈ l ∧ p.blocked (P ++ [n]) N
    | none => p.blocked (P ++ [n]) N

/-- The header `[N]` is a panic: no name on the way, nor the last, has a value, and either the children of the table above are counted, and there are some; or the
header is otherwise in order (there is no such table yet, and no child of the table above has a value) and the way is blocked. -/
def Parser.barred (p : Parser) (N : List Str) : Prop :=
  (∀ a b, a ≠ [] → a ++ b = N → ¬ p.filled (tableKey a)) ∧
  ((N.dropLast ≠ [] ∧ ∃ c, p.getChildren (tableKey N.dropLast) = some (.count (c + 1))) ∨
    (p.getValue (tableKey N) = .ok none ∧
      (N.dropLast ≠ [] → ∀ l, p.getChildren (tableKey N.dropLast) = some (.keys l) → ∀ k ∈ l, ¬ p.filled (tableKey N.dropLast ++ lit% "." ++ k)) ∧
      p.blocked [] N))

/-- The header `[N]` is not in order: there is a value on the way to `N` or at `N`, or a value directly in the table above `N`, or the table is already there. -/
def Parser.refuses (p : Parser) (N : List Str) : Prop :=
  (∃ a b, a ≠ [] ∧ a ++ b = N ∧ p.filled (tableKey a)) ∨
  (N.dropLast ≠ [] ∧ ∃ l, p.getChildren (tableKey N.dropLast) = some (.keys l) ∧ ∃ k ∈ l, p.filled (tableKey N.dropLast ++ lit% "." ++ k)) ∨
  p.getValue (tableKey N) ≠ .ok none

/-- A line without a header and without an array. -/
def ET.bare : ET → Prop
  | .table _ _ _ _ => False
  | .kv _ _ _ v _ _ => v.arrayless = true
  | _ => True

/-- The dates and times that do not exist in lines without headers, with their keys outside of all tables. -/
def sectionDates : List (Str × ET) → List (Str × Str)
  | [] => []
  | (_, .kv _ k _ v _ _) :: ls => (pairEntries [] k v).filterMap badDate ++ sectionDates ls
  | _ :: ls => sectionDates ls

end Tomllib
