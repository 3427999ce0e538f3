import Verif.Spec.Tables
import Verif.Spec.Content
/-!
# Lines in another order
-/

namespace Tomllib

/-- The header of a table or of an element of an array of tables. -/
def ET.isHeader : ET → Bool
  | .table _ _ _ _ => true
  | _ => false

/-- The same lines in another order, where no line goes past a header: two neighbours which are not headers change places, any number of times. -/
inductive Shuffled : List ET → List ET → Prop
  | nil : Shuffled [] []
  | cons (e : ET) {l l' : List ET} : Shuffled l l' → Shuffled (e :: l) (e :: l')
  | swap {e e' : ET} (l : List ET) : e.isHeader = false → e'.isHeader = false → Shuffled (e :: e' :: l) (e' :: e :: l)
  | trans {l l' l'' : List ET} : Shuffled l l' → Shuffled l' l'' → Shuffled l l''

/-- What the lines of a document put where, given the names of the header that they are below: a pair is put into the table of the header above it (the top level
has no names); a header makes a table. -/
def filed : List Str → List ET → List (List Str × Option (Str × Value))
  | _, [] => []
  | h, .kv _ k _ v _ _ :: r => (h, some (k, v.value)) :: filed h r
  | _, .table _ t _ _ :: r => (t.table.names, none) :: filed t.table.names r
  | h, _ :: r => filed h r

/-- There is no header of an array of tables. -/
def ET.noArray : ET → Bool
  | .table _ (.arr _) _ _ => false
  | _ => true

/-- The name of the top level that a line is about, below a header that begins with the name `g` (none if there is no header above): a header is about its first name, a
pair is about the first name of the header above it, or about its own key if there is none. -/
def Item.owner (g : Option Str) : Item → Str
  | .pair k _ => g.getD k
  | .header _ ns => ns.headD []

/-- The first name of the header that the next line is below. -/
def Item.below (g : Option Str) : Item → Option Str
  | .pair _ _ => g
  | .header _ ns => some (ns.headD [])

/-- The lines that are about a name of the top level, in their order. -/
def about (N : Str) : Option Str → List Item → List Item
  | _, [] => []
  | g, i :: r => if i.owner g = N then i :: about N (i.below g) r else about N (i.below g) r

/-- The same children: the same number, or the same names in some order. -/
def SameKids : Option Children → Option Children → Prop
  | none, none => True
  | some (.count n), some (.count n') => n = n'
  | some (.keys l), some (.keys l') => l.Perm l'
  | _, _ => False

end Tomllib
