import Verif.Spec.Tables
import Verif.Spec.Lines
/-!
# Lines that are either in order or refused

`Sections.fits` says when a line is in order. The library refuses most other lines: it reports an error, or panics. `Sections.regular` leaves out those that are not in
order and are accepted all the same, or lost among others:
* a value is given to a name that has been used on the way to a table, but has no header of its own;
* the header of a table has the name of an array of tables that has just been opened, or of one that is no longer open;
* the header of an array of tables goes into a value that is an inline table;
* the header of an array of tables goes into an array that is open but not the innermost one, or into one that is no longer open;
* the text of the name of an open array of tables begins the text of the name of the header, but not name by name; or the header uses a stray name.
-/

namespace Tomllib

/-- The line is a key/value pair. -/
def ET.keyed : ET → Prop
  | .kv _ _ _ _ _ _ => True
  | _ => False

namespace Sections

/-- The value is an inline table. -/
def inlined : Option VT → Bool
  | some (.itab _ _) => true
  | _ => false

/-- A line that is either in order or refused. -/
def regular (D : Sections) : ET → Prop
  | .kv _ k _ _ _ _ => (D.here, k) ∈ D.names → (D.valueAt (D.here ++ [.str k])).isSome ∨ D.here ++ [.str k] ∈ D.heads
  | .table _ (.std t) _ _ =>
    (∀ a ∈ onWay t.names, D.count (D.target a) ≠ none → a ∈ D.opened) ∧ (t.names ∈ D.opened → D.here ≠ D.path [] t.names) ∧
    D.apart t.names ∧ D.clear t.names
  | .table _ (.arr t) _ _ =>
    (∀ a ∈ onWay t.names, (D.count (D.target a) ≠ none → a ∈ D.opened) ∧ (a ≠ t.names → inlined (D.valueAt (D.target a)) = false)) ∧
    (t.names ∈ D.opened ∨ (∀ P ∈ D.opened, ¬ P.isPrefixOf t.names) ∨ (D.opened.getLastD []).isPrefixOf t.names) ∧
    D.apart t.names ∧ D.clear t.names
  | _ => True

instance (D : Sections) (e : ET) : Decidable (D.regular e) := by
  unfold regular
  split <;> infer_instance

/-- The value is a simple one, or an array without elements. -/
def bare : Option VT → Bool
  | some (.leaf _) => true
  | some (.arr .nil _ _) => true
  | _ => false

/-- A line at which `parse` panics: the header of an array of tables inside of a value that is not an inline table; or one that has the name of a simple value or of an array without elements, while no
array of tables is open, or inside of the innermost one that is open. -/
def crashes (D : Sections) : ET → Prop
  | .table _ (.arr t) _ _ =>
    (∃ a ∈ onWay t.names, a ≠ t.names ∧ (D.valueAt (D.target a)).isSome ∧ inlined (D.valueAt (D.target a)) = false) ∨
    (bare (D.valueAt (D.target t.names)) = true ∧ (D.opened.getLastD []).isPrefixOf t.names)
  | _ => False

instance (D : Sections) (e : ET) : Decidable (D.crashes e) := by
  unfold crashes
  split <;> infer_instance

/-- A header that leads into an array of tables that is not open any more; the header of an array of tables may also lead into one that is open, but not the innermost, and
not inside of that either. The text of the name of an open array of tables begins the text of the header only if it does so name by name. -/
def shut (D : Sections) : ET → Prop
  | .table _ (.std t) _ _ => D.apart t.names ∧ ∃ a ∈ onWay t.names, a ≠ t.names ∧ D.count (D.target a) ≠ none ∧ a ∉ D.opened
  | .table _ (.arr t) _ _ =>
    D.apart t.names ∧ t.names ∉ D.opened ∧
    ∃ a ∈ onWay t.names, a ≠ t.names ∧ D.count (D.target a) ≠ none ∧ (a ∉ D.opened ∨ ¬ (D.opened.getLastD []).isPrefixOf t.names)
  | _ => False

instance (D : Sections) (e : ET) : Decidable (D.shut e) := by
  unfold shut
  split <;> infer_instance

/-- The header of an array of tables that begins with a stray name. -/
def astray (D : Sections) : ET → Prop
  | .table _ (.arr t) _ _ => ¬ D.clear t.names
  | _ => False

instance (D : Sections) (e : ET) : Decidable (D.astray e) := by
  unfold astray
  split <;> infer_instance

/-- The text of the name of an open array of tables begins the text of a header only if it does so name by name. -/
def settled (D : Sections) : ET → Prop
  | .table _ t _ _ => D.apart t.table.names
  | _ => True

instance (D : Sections) (e : ET) : Decidable (D.settled e) := by
  unfold settled
  split <;> infer_instance

/-- The index that is reported with the header of an array of tables which is not in order. -/
def badIndex (D : Sections) (N : List Str) : Nat :=
  (match D.valueAt (D.target N) with
    | some (.arr es _ _) => es.kinds.length - 1
    | _ => 0) +
  (if (D.opened.getLastD []).isPrefixOf N ∨ bare (D.valueAt (D.target N)) then 0 else 1)

/-- All lines, up to the first that is not in order, are regular. -/
def Regular (D : Sections) : List (Str × ET) → Prop
  | [] => True
  | l :: ls => D.regular l.2 ∧ (D.fits l.2 → Regular (D.step l.2) ls)

instance Regular.dec : (D : Sections) → (ls : List (Str × ET)) → Decidable (D.Regular ls)
  | _, [] => isTrue trivial
  | D, l :: ls => @instDecidableAnd _ _ _ (@instDecidableForall _ _ _ (Regular.dec (D.step l.2) ls))

end Sections
end Tomllib
