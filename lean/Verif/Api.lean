import Verif.Grammar
/-!
# The public operations: src/internals/parser.rs and src/lib.rs

`TOMLParser` (src/lib.rs) is a wrapper that forwards every method to `internals::parser::Parser`.
-/

namespace Tomllib

/-- src/types.rs:15-31 -/
inductive ParseResult where
  | full
  | fullError (errs : List ParseError)
  | partialRes (leftover : Str) (line col : Nat)
  | partialError (leftover : Str) (line col : Nat) (errs : List ParseError)
  | failure (line col : Nat)
  deriving DecidableEq, Repr

/-- src/internals/parser.rs:14-28 -/
structure Parser where
  tree : Toml
  st : PState
  leftover : Str
  deriving DecidableEq, Repr

/-- src/internals/parser.rs:31-43 -/
def Parser.new : Parser := ⟨⟨[]⟩, PState.new, []⟩

/-- src/internals/parser.rs:45-75.  The result carries the leftover of *before* this parse (line 49). -/
def Parser.parse (p : Parser) (input : Str) : Out (Parser × ParseResult) :=
  match toml p.st input with
  | .ok (st', .done i o) =>
    let p' : Parser := ⟨o, st', i⟩
    if i ≠ [] then
      if st'.errors ≠ [] then .ok (p', .partialError p.leftover st'.lineCount 0 st'.errors)
      else .ok (p', .partialRes p.leftover st'.lineCount 0)
    else
      if st'.errors ≠ [] then .ok (p', .fullError st'.errors)
      else .ok (p', .full)
  | .ok (st', _) => .ok ({ p with st := st' }, .failure st'.lineCount 0)
  | .panic x => .panic x
  | .fuel => .fuel

/-- `impl Display for Parser`, src/internals/parser.rs:421-425. -/
def Parser.display (p : Parser) : Out Str := renderToml p.st.heap p.tree

/-- src/internals/parser.rs:99-112 -/
def Parser.getValue (p : Parser) (key : Str) : Out (Option Value) :=
  match p.st.map.get? key with
  | some ⟨some a, _⟩ => do
    let v ← toVal p.st.heap a
    .ok (some v)
  | _ => .ok none

/-- src/internals/parser.rs:114-128 -/
def Parser.getChildren (p : Parser) (key : Str) : Option Children :=
  let k := if key = [] then root else key
  match p.st.map.get? k with
  | some hv => some hv.subkeys
  | none => none

/-- What a program can do with the `&Children` that `get_children` gives it: set the `Cell` of a count, or change the list of names in the `RefCell`
(src/types.rs:127-160, src/internals/parser.rs:114-128). A count stays a count and a list stays a list. That a program holds on to the list with `borrow_mut` is not modelled. -/
def Parser.putChildren (p : Parser) (key : Str) (c : Children) : Parser :=
  let k := if key = [] then root else key
  match p.st.map.get? k with
  | some hv => match hv.subkeys, c with
    | .count _, .count _ => { p with st := { p.st with map := p.st.map.insert k { hv with subkeys := c } } }
    | .keys _, .keys _ => { p with st := { p.st with map := p.st.map.insert k { hv with subkeys := c } } }
    | _, _ => p
  | none => p

/-! ## `set_value` -/

mutual
/-- `same_structure`, src/internals/parser.rs:260-298. -/
def sameStructure (h : Heap) (a : Addr) : Value → Bool
  | .arr ts => match h[a]? with
    | some (.arr vals _ _) => if vals.length ≠ ts.length then false else sameAVs h vals ts
    | _ => false
  | .itab ts => match h[a]? with
    | some (.itab kvs _) => if kvs.length ≠ ts.length then false else sameKVs h kvs ts
    | _ => false
  | .int s => (Value.int s).validate && isScalarCell h a
  | .float s => (Value.float s).validate && isScalarCell h a
  | .bool b => (Value.bool b).validate && isScalarCell h a
  | .dt d => (Value.dt d).validate && isScalarCell h a
  | .str s t => (Value.str s t).validate && isScalarCell h a
/-- The loop over array elements, 270-275. -/
def sameAVs (h : Heap) : List ArrayValue → List Value → Bool
  | av :: avs, t :: ts => sameStructure h av.val t && sameAVs h avs ts
  | _, _ => true
/-- The loop over pairs, 283-289. -/
def sameKVs (h : Heap) : List TableKeyVal → List (Str × Value) → Bool
  | kv :: kvs, (k, t) :: ts => decide (kv.keyval.key = k) && (sameStructure h kv.keyval.val t && sameKVs h kvs ts)
  | _, _ => true
/-- Neither an array nor an inline table (a `Table` counts as a scalar here). -/
def isScalarCell (h : Heap) (a : Addr) : Bool :=
  match h[a]? with
  | some (.arr _ _ _) => false
  | some (.itab _ _) => false
  | some _ => true
  | none => false
end

/-- A scalar `Value` as a cell. -/
def Value.scalarTV : Value → Option TVal
  | .int s => some (.int s)
  | .float s => some (.float s)
  | .bool b => some (.bool b)
  | .dt d => some (.dt d)
  | .str s t => some (.str s t)
  | .arr _ => none
  | .itab _ => none

/-- `*val_rf.borrow_mut() = value` -/
def writeCell (h : Heap) (a : Addr) (v : TVal) : Out Heap :=
  if a < h.length then .ok (h.set a v) else .panic .dangling

mutual
/-- `replace_values`, src/internals/parser.rs:371-402.  It returns `true` or panics. -/
def replaceValues (h : Heap) (a : Addr) : Value → Out Heap
  | .arr ts => match h[a]? with
    | some (.arr vals _ _) => replaceAVs h vals ts
    | _ => .panic .replaceStructure
  | .itab ts => match h[a]? with
    | some (.itab kvs _) => replaceKVs h kvs ts
    | _ => .panic .replaceStructure
  | .int s => writeCell h a (.int s)
  | .float s => writeCell h a (.float s)
  | .bool b => writeCell h a (.bool b)
  | .dt d => writeCell h a (.dt d)
  | .str s t => writeCell h a (.str s t)
/-- The loop over array elements. -/
def replaceAVs (h : Heap) : List ArrayValue → List Value → Out Heap
  | [], _ => .ok h
  | _ :: _, [] => .panic .index
  | av :: avs, t :: ts => match replaceValues h av.val t with
    | .ok h' => replaceAVs h' avs ts
    | .panic x => .panic x
    | .fuel => .fuel
/-- The loop over pairs. -/
def replaceKVs (h : Heap) : List TableKeyVal → List (Str × Value) → Out Heap
  | [], _ => .ok h
  | _ :: _, [] => .panic .index
  | kv :: kvs, (_, t) :: ts => match replaceValues h kv.keyval.val t with
    | .ok h' => replaceKVs h' kvs ts
    | .panic x => .panic x
    | .fuel => .fuel
end

/-- The separator of `ArrayValue::default` and `TableKeyVal::default` (src/internals/ast/structs.rs:642-647 and 729-736), none for the last. -/
def defaultSep (last : Bool) : Option WSSep := if last then none else some ⟨[], lit% " "⟩

mutual
/-- `convert_vector`, src/internals/parser.rs:184-258; the new cells go to the heap. An invalid value inside an inline table panics (line 215),
elsewhere it makes the result `None`. -/
def convertVector (h : Heap) : Value → Out (Heap × Option TVal)
  | .arr vs => match convertAVs h vs with
    | .ok (h', some avs) => .ok (h', some (.arr avs [] []))
    | .ok (h', none) => .ok (h', none)
    | .panic x => .panic x
    | .fuel => .fuel
  | .itab kvs => match convertKVs h kvs with
    | .ok (h', tkvs) => .ok (h', some (.itab tkvs ⟨lit% " ", lit% " "⟩))
    | .panic x => .panic x
    | .fuel => .fuel
  | .int s => .ok (h, if (Value.int s).validate then some (.int s) else none)
  | .float s => .ok (h, if (Value.float s).validate then some (.float s) else none)
  | .bool b => .ok (h, some (.bool b))
  | .dt d => .ok (h, if (Value.dt d).validate then some (.dt d) else none)
  | .str s t => .ok (h, if (Value.str s t).validate then some (.str s t) else none)
/-- The loop over array elements, 190-204. -/
def convertAVs (h : Heap) : List Value → Out (Heap × Option (List ArrayValue))
  | [] => .ok (h, some [])
  | v :: vs => match convertVector h v with
    | .ok (h', none) => .ok (h', none)
    | .ok (h', some tv) =>
      match convertAVs (h' ++ [tv]) vs with
      | .ok (h'', some avs) => .ok (h'', some (⟨h'.length, defaultSep vs.isEmpty, []⟩ :: avs))
      | .ok (h'', none) => .ok (h'', none)
      | .panic x => .panic x
      | .fuel => .fuel
    | .panic x => .panic x
    | .fuel => .fuel
/-- The loop over pairs, 212-224. -/
def convertKVs (h : Heap) : List (Str × Value) → Out (Heap × List TableKeyVal)
  | [] => .ok (h, [])
  | (k, v) :: kvs => match convertVector h v with
    | .ok (_, none) => .panic .unwrapNone
    | .ok (h', some tv) =>
      match convertKVs (h' ++ [tv]) kvs with
      | .ok (h'', tkvs) =>
        .ok (h'', ⟨⟨k, ⟨lit% " ", lit% " "⟩, h'.length⟩, defaultSep kvs.isEmpty, []⟩ :: tkvs)
      | .panic x => .panic x
      | .fuel => .fuel
    | .panic x => .panic x
    | .fuel => .fuel
end

/-- The loop over the children in `get_all_subkeys`: each child key followed by its own sub-keys. -/
def subkeysOf (r : Str → Out (List Str)) : List Str → Out (List Str)
  | [] => .ok []
  | k :: ks => match r k with
    | .ok a => match subkeysOf r ks with
      | .ok b => .ok (k :: a ++ b)
      | .panic x => .panic x
      | .fuel => .fuel
    | .panic x => .panic x
    | .fuel => .fuel

/-- `get_all_subkeys`, src/internals/parser.rs:346-369, with a bound on the depth. -/
def allSubkeysAt (m : KMap) : Nat → Str → Out (List Str)
  | 0, _ => .fuel
  | f + 1, key => match m.get? key with
    | none => .ok []
    | some hv => match hv.subkeys with
      | .count c => subkeysOf (allSubkeysAt m f) ((List.range c).map fun i => key ++ idxStr i)
      | .keys ks => subkeysOf (allSubkeysAt m f) (ks.map fun k => key ++ lit% "." ++ k)

/-- The length of the longest key. -/
def maxKeyLen : KMap → Nat
  | [] => 0
  | (k, _) :: m => max k.length (maxKeyLen m)

/-- `get_all_subkeys`: a sub-key is longer than its key, so the longest key bounds the depth. -/
def allSubkeys (m : KMap) (key : Str) : Out (List Str) := allSubkeysAt m (maxKeyLen m + 2) key

/-- `self.map.remove(key)` for each key. -/
def eraseAll (m : KMap) : List Str → KMap
  | [] => m
  | k :: ks => eraseAll (m.erase k) ks

/-- The loop over array elements in `rebuild_vector`, src/internals/parser.rs:313-316. -/
def rebuildAVs (r : KMap → Str → Addr → Out KMap) (key : Str) : Nat → List ArrayValue → KMap → Out KMap
  | _, [], m => .ok m
  | i, av :: avs, m => match r m (key ++ idxStr i) av.val with
    | .ok m' => rebuildAVs r key (i + 1) avs m'
    | .panic x => .panic x
    | .fuel => .fuel

/-- The loop over pairs in `rebuild_vector`, src/internals/parser.rs:333-336. -/
def rebuildKVs (r : KMap → Str → Addr → Out KMap) (key : Str) : List TableKeyVal → KMap → Out KMap
  | [], m => .ok m
  | kv :: kvs, m => match r m (key ++ lit% "." ++ kv.keyval.key) kv.keyval.val with
    | .ok m' => rebuildKVs r key kvs m'
    | .panic x => .panic x
    | .fuel => .fuel

/-- `rebuild_vector`, src/internals/parser.rs:300-344, with a bound on the depth. -/
def rebuildAt (h : Heap) : Nat → KMap → Str → Addr → Bool → Out KMap
  | 0, _, _, _, _ => .fuel
  | f + 1, m, key, a, skip =>
    match h[a]? with
    | none => .panic .dangling
    | some (.arr vals _ _) => match m.get? key with
      | none => .panic .rebuildVacant
      | some hv =>
        rebuildAVs (fun m k a => rebuildAt h f m k a false) key 0 vals
          (m.insert key ⟨if skip then hv.value else some a, .count vals.length⟩)
    | some (.itab kvs _) => match m.get? key with
      | none => .panic .rebuildVacant
      | some hv =>
        let subs := match hv.subkeys with
          | .keys ks => Children.keys (kvs.foldl (fun ks kv => (insertUniq ks kv.keyval.key).1) ks)
          | .count c => .count c
        rebuildKVs (fun m k a => rebuildAt h f m k a false) key kvs
          (m.insert key ⟨if skip then hv.value else some a, subs⟩)
    | some _ => match m.get? key with
      | some _ => .ok m
      | none => .ok (m.insert key ⟨some a, .count 0⟩)

/-- `set_value`, src/internals/parser.rs:130-182. -/
def Parser.setValue (p : Parser) (key : Str) (v : Value) : Out (Parser × Bool) :=
  match p.st.map.get? key with
  | some ⟨some a, _⟩ =>
    if sameStructure p.st.heap a v then do
      let h ← replaceValues p.st.heap a v
      .ok ({ p with st := { p.st with heap := h } }, true)
    else do
      let subs ← allSubkeys p.st.map key
      let m := eraseAll p.st.map subs
      let (h, nv) ← convertVector p.st.heap v
      match nv with
      | none => .ok ({ p with st := { p.st with map := m, heap := h } }, false)
      | some (.arr vals c1 c2) => do
        let h ← (match m.get? key with
          | some ⟨some a, _⟩ => writeCell h a (.arr vals c1 c2)
          | some ⟨none, _⟩ => Out.panic .existingNone
          | none => Out.ok h)
        let b := h.length
        let h := h ++ [.arr vals c1 c2]
        let m ← rebuildAt h (h.length + 1) m key b true
        .ok ({ p with st := { p.st with map := m, heap := h } }, true)
      | some (.itab kvs ws) => do
        let h ← (match m.get? key with
          | some ⟨some a, _⟩ => writeCell h a (.itab kvs ws)
          | some ⟨none, _⟩ => Out.panic .existingNone
          | none => Out.ok h)
        let b := h.length
        let h := h ++ [.itab kvs ws]
        let m ← rebuildAt h (h.length + 1) m key b true
        .ok ({ p with st := { p.st with map := m, heap := h } }, true)
      | some _ => .panic .setNotVector
  | _ => .ok (p, false)

end Tomllib
