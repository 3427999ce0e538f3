import Verif.Spec.Issues
import Verif.Spec.Path
import Verif.Api
/-!
# What a document means

Sections, tables and arrays of tables, as TOML defines them, read off the syntax tree of a document: which paths have which values, which tables there are, and
how many elements an array of tables has. Also, which documents the library reads as TOML says.
-/

namespace Tomllib

/-! ## Inside a value -/

mutual
/-- The part of a value at a path: `[i]` is the element with that index, a name is the pair with that key. -/
def VT.part : VT → List Key → Option VT
  | t, [] => some t
  | .arr es _ _, .idx i :: q => es.part i q
  | .itab kvs _, .str k :: q => kvs.part k q
  | _, _ => none
def Elems.part : Elems → Nat → List Key → Option VT
  | .nil, _, _ => none
  | .cons v _ _ _, 0, q => v.part q
  | .cons _ _ _ r, i + 1, q => r.part i q
def Pairs.part : Pairs → Str → List Key → Option VT
  | .nil, _, _ => none
  | .cons k' _ v _ _ r, k, q => if k' = k then v.part q else r.part k q
end

/-- The keys of the pairs. -/
def Pairs.keys : Pairs → List Str
  | .nil => []
  | .cons k _ _ _ _ r => k :: r.keys

/-- The children of a value: an array has a number of them, an inline table has keys. -/
def VT.children : VT → Children
  | .leaf _ => .count 0
  | .arr es _ _ => .count es.kinds.length
  | .itab kvs _ => .keys kvs.keys

mutual
/-- Nothing is wrong with a value: dates and times exist, the elements of an array are of one kind, the keys of an inline table are distinct. -/
def VT.sound : VT → Bool
  | .leaf (.dt d) => d.real
  | .leaf _ => true
  | .arr es _ _ => es.sound && es.kinds.all fun k => es.kinds.all fun k' => k = k'
  | .itab kvs _ => kvs.sound
def Elems.sound : Elems → Bool
  | .nil => true
  | .cons v _ _ r => v.sound && r.sound
def Pairs.sound : Pairs → Bool
  | .nil => true
  | .cons k _ v _ _ r => v.sound && !r.keys.contains k && r.sound
end

/-! ## Sections -/

/-- What has been read so far. -/
structure Sections where
  /-- The key/value pairs, with their paths. -/
  vals : List (List Key × VT) := []
  /-- The tables with a header `[…]`. -/
  heads : List (List Key) := []
  /-- The names in tables: the path of the table and the name. -/
  names : List (List Key × Str) := []
  /-- The arrays of tables, with the number of their elements; the latest count comes first. -/
  arrs : List (List Key × Nat) := []
  /-- The table that the next key/value pair belongs to. -/
  here : List Key := []
  /-- The names of the arrays of tables which that table is inside of, from the outside in. -/
  opened : List (List Str) := []
  /-- Names which the library lists at the top level although they belong into an element of an array of tables. -/
  stray : List Str := []

namespace Sections

/-- The number of elements of an array of tables. -/
def count (D : Sections) (p : List Key) : Option Nat := D.arrs.findSome? fun e => if e.1 = p then some e.2 else none

/-- The name of an array of tables leads into its last element. -/
def enter (D : Sections) (p : List Key) : List Key :=
  match D.count p with
  | some n => p ++ [.idx (n - 1)]
  | none => p

/-- Where names lead to, from the table at `p`. -/
def path (D : Sections) (p : List Key) : List Str → List Key
  | [] => p
  | k :: ks => D.path (D.enter (p ++ [.str k])) ks

/-- The names of a header, each with the path of the table it is in. -/
def way (D : Sections) (p : List Key) : List Str → List (List Key × Str)
  | [] => []
  | k :: ks => (p, k) :: D.way (D.enter (p ++ [.str k])) ks

/-- What a header is the name of. -/
def target (D : Sections) (N : List Str) : List Key := D.path [] N.dropLast ++ [.str (N.getLastD [])]

/-- The next line. -/
def step (D : Sections) : ET → Sections
  | .kv _ k _ v _ _ => { D with vals := D.vals ++ [(D.here ++ [.str k], v)], names := D.names ++ [(D.here, k)] }
  | .table _ (.std t) _ _ =>
    { D with
      heads := D.heads ++ [D.target t.names], names := D.names ++ D.way [] t.names, here := D.target t.names
      opened := D.opened.filter fun P => P.isPrefixOf t.names
      stray := if t.names.dropLast ∈ D.opened then D.stray ++ [t.names.getLastD []] else D.stray }
  | .table _ (.arr t) _ _ =>
    { D with
      arrs := (D.target t.names, (D.count (D.target t.names)).getD 0 + 1) :: D.arrs, names := D.names ++ D.way [] t.names
      here := D.target t.names ++ [.idx ((D.count (D.target t.names)).getD 0)]
      opened := (D.opened.filter fun P => P ≠ t.names && P.isPrefixOf t.names) ++ [t.names] }
  | _ => D

/-- A whole document. -/
def read (ls : List (Str × ET)) : Sections := ls.foldl (fun D l => D.step l.2) {}

/-- The value at a path. -/
def valueAt (D : Sections) (p : List Key) : Option VT :=
  D.vals.findSome? fun e => if e.1.isPrefixOf p then e.2.part (p.drop e.1.length) else none

/-- The names in the table at a path, in order of their first use. -/
def namesOf (D : Sections) (p : List Key) : List Str := D.names.foldl (fun l e => if e.1 = p ∧ e.2 ∉ l then l ++ [e.2] else l) []

/-- There is a table at the path: it is the top level, or has a header, or is an element of an array of tables, or there is something in it. -/
def isTable (D : Sections) (p : List Key) : Prop :=
  p = [] ∨ p ∈ D.heads ∨ (∃ e ∈ D.arrs, p = e.1 ++ [.idx (e.2 - 1)]) ∨ ∃ e ∈ D.names, e.1 = p

instance (D : Sections) (p : List Key) : Decidable (D.isTable p) := by unfold isTable; infer_instance

/-- The children of a path. -/
def childrenAt (D : Sections) (p : List Key) : Option Children :=
  match D.valueAt p with
  | some t => some t.children
  | none => match D.count p with
    | some n => some (.count n)
    | none => if D.isTable p then some (.keys (D.namesOf p)) else none

/-! ## Which lines are in order -/

/-- The names on the way to a table, and its own. -/
def onWay (N : List Str) : List (List Str) := (List.range N.length).map fun i => N.take (i + 1)

/-- The text of the key of an open array begins the key of a header only if its names do: the library compares the texts. -/
def apart (D : Sections) (N : List Str) : Prop := ∀ P ∈ D.opened, (joinKey P).isPrefixOf (joinKey N) → P.isPrefixOf N

/-- A stray name is not used for another table. -/
def clear (D : Sections) (N : List Str) : Prop := 2 ≤ N.length → N.headD [] ∈ D.stray → ([], N.headD []) ∈ D.names

instance (D : Sections) (N : List Str) : Decidable (D.apart N) := by unfold apart; infer_instance
instance (D : Sections) (N : List Str) : Decidable (D.clear N) := by unfold clear; infer_instance

/-- A line is in order.
* A key is used once; there is nothing wrong with its value.
* A header of a table: no name on the way has a value; arrays of tables on the way are those that are open; it is the first header of the table; and no name in the
  table above is a key/value pair, unless that is the top level or an element of an array of tables (the library asks for this, TOML does not).
* A header of an array of tables: no name on the way has a value; it is one more element of an open array; or it is a new name, and either inside of the innermost
  open array, or outside of all of them. -/
def fits (D : Sections) : ET → Prop
  | .kv _ k _ v _ _ => (D.here, k) ∉ D.names ∧ v.sound = true
  | .table _ (.std t) _ _ =>
    (∀ a ∈ onWay t.names, (D.valueAt (D.target a)).isNone ∧ (D.count (D.target a) ≠ none → a ∈ D.opened ∧ a ≠ t.names)) ∧
    D.target t.names ∉ D.heads ∧
    (t.names.dropLast ≠ [] → t.names.dropLast ∉ D.opened → ∀ e ∈ D.vals, e.1.dropLast ≠ D.path [] t.names.dropLast) ∧
    D.apart t.names ∧ D.clear t.names
  | .table _ (.arr t) _ _ =>
    (∀ a ∈ onWay t.names, (D.valueAt (D.target a)).isNone ∧ (a ≠ t.names → D.count (D.target a) ≠ none → a ∈ D.opened)) ∧
    (t.names ∈ D.opened ∨ (¬ D.isTable (D.target t.names) ∧ D.count (D.target t.names) = none ∧
      ((∀ P ∈ D.opened, ¬ P.isPrefixOf t.names) ∨ (D.opened.getLastD []).isPrefixOf t.names))) ∧
    D.apart t.names ∧ D.clear t.names
  | _ => True

instance (D : Sections) (e : ET) : Decidable (D.fits e) := by
  unfold fits
  split <;> infer_instance

/-- All lines are in order. -/
def Fits (D : Sections) : List (Str × ET) → Prop
  | [] => True
  | l :: ls => D.fits l.2 ∧ Fits (D.step l.2) ls

instance Fits.dec : (D : Sections) → (ls : List (Str × ET)) → Decidable (D.Fits ls)
  | _, [] => isTrue trivial
  | D, l :: ls => @instDecidableAnd _ _ _ (Fits.dec (D.step l.2) ls)

/-! ## What the parser answers -/

/-- The answers of a parser are what the document says.
* `value`: a path with a value has that value; a table with a header makes `get_value` panic; every other path has no value.
* `children`: the children of a path: the number of elements, or the names in the order of their first use, or nothing.
* `top`: the names at the top level; stray names may be among them.
* `other`: there is nothing at keys which are not those of paths. -/
structure Answers (D : Sections) (p : Parser) : Prop where
  value : ∀ q, PathWf q → q ≠ [] → p.getValue (keyOf [] q) =
    match D.valueAt q with
    | some t => .ok (some t.value)
    | none => if q ∈ D.heads then .panic .tableToVal else .ok none
  children : ∀ q, PathWf q → q ≠ [] → p.getChildren (keyOf [] q) = D.childrenAt q
  top : ∃ l, p.getChildren [] = some (.keys l) ∧ (D.stray = [] → l = D.namesOf []) ∧ ∀ k, k ∈ l ↔ (k ∈ D.namesOf [] ∨ k ∈ D.stray)
  other : ∀ k, k ≠ [] → k ≠ root → (∀ q, PathWf q → k ≠ keyOf [] q) → p.getValue k = .ok none ∧ p.getChildren k = none

end Sections

/-! ## Walking -/

/-- The keys that are met by asking for the children of the top level, for their children, and so on. -/
inductive Visited (p : Parser) : Str → Prop
  | top : Visited p []
  | child {b k : Str} {c : Children} : Visited p b → p.getChildren b = some c → k ∈ c.combineChildKeys b → Visited p k

end Tomllib
