import Verif.Spec.Path
/-!
# The keys of a document and what they stand for

Read off the syntax tree of a document without arrays of tables. Of several entries with the same key the first one counts.
-/

namespace Tomllib

mutual
/-- The entries below the key `K` of a value: elements at `K[i]`, pairs at `K.k`; what is further inside comes first. -/
def VT.entries (K : Str) : VT → List (Str × VT)
  | .leaf _ => []
  | .arr es _ _ => es.entries K 0
  | .itab kvs _ => kvs.entries K
def Elems.entries (K : Str) (i : Nat) : Elems → List (Str × VT)
  | .nil => []
  | .cons v _ _ r => v.entries (indexed K i) ++ (indexed K i, v) :: r.entries K (i + 1)
def Pairs.entries (K : Str) : Pairs → List (Str × VT)
  | .nil => []
  | .cons k _ v _ _ r => v.entries (dotted K k) ++ (dotted K k, v) :: r.entries K
end

/-- The entries of a value with the key `K`, with its own. -/
def VT.allEntries (K : Str) (t : VT) : List (Str × VT) := t.entries K ++ [(K, t)]

/-- What a key can stand for: a value, or a table with a header. -/
inductive Entry where
  | val (t : VT)
  | header

/-- The names of a table header. -/
def Table.names (t : Table) : List Str := t.keys.map (·.key)

/-- The key of a table header: its names, joined. -/
def Table.key (t : Table) : Str := t.names.foldl dotted []

/-- The entries of lines that belong to the table with the key `T` (empty for the root). Headers of arrays of tables are not covered. -/
def docEntries (T : Str) : List (Str × ET) → List (Str × Entry)
  | [] => []
  | (_, .kv _ k _ v _ _) :: ls => (v.allEntries (dotted T k)).map (fun e => (e.1, .val e.2)) ++ docEntries T ls
  | (_, .table _ (.std t) _ _) :: ls => (t.key, .header) :: docEntries t.key ls
  | _ :: ls => docEntries T ls

/-- The first entry with a key. -/
def lookup {V : Type} (k : Str) : List (Str × V) → Option V
  | [] => none
  | (k', v) :: l => if k' = k then some v else lookup k l

/-- The key of a list of names. -/
def joinKey (ns : List Str) : Str := ns.foldl dotted []

/-- A key has a value (and is not just a table with a header). -/
def IsValue (E : List (Str × Entry)) (k : Str) : Prop := ∃ t, lookup k E = some (.val t)

/-- A header is in order after the entries `E`: no key on the way to the table has a value, there was no such header before, and no name directly below
the table above has a value (the last is what the code asks for; TOML does not). -/
def HeaderOk (E : List (Str × Entry)) (N : List Str) : Prop :=
  (∀ a b, a ≠ [] → a ++ b = N → ¬ IsValue E (joinKey a)) ∧ lookup (joinKey N) E = none ∧
  (N.dropLast ≠ [] → ∀ k, KeyWf k → ¬ IsValue E (joinKey (N.dropLast ++ [k])))

/-- All headers are in order. -/
def HeadersOk (T : Str) (E : List (Str × Entry)) : List (Str × ET) → Prop
  | [] => True
  | (_, .kv _ k _ v _ _) :: ls => HeadersOk T (E ++ (v.allEntries (dotted T k)).map (fun e => (e.1, .val e.2))) ls
  | (_, .table _ (.std t) _ _) :: ls => HeaderOk E t.names ∧ HeadersOk t.key (E ++ [(t.key, .header)]) ls
  | _ :: ls => HeadersOk T E ls

/-- Is there a line that is the header of an array of tables? -/
def hasArrayTable (ls : List (Str × ET)) : Bool := ls.any fun l => match l.2 with
  | .table _ (.arr _) _ _ => true
  | _ => false

/-- What is found at a key: nothing, a value, or the panic of a table header. -/
def readEntry : Option Entry → Out (Option Value)
  | none => .ok none
  | some (.val t) => .ok (some t.value)
  | some .header => .panic .tableToVal

end Tomllib
