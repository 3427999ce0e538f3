import Verif.Nom
/-!
# The key table: src/internals/primitives.rs:46-422 and src/internals/objects.rs:29-194
-/

namespace Tomllib

/-- src/internals/objects.rs:29-37 `Parser::insert`: append if absent; the flag says whether it was absent. -/
def insertUniq (ks : List Str) (k : Str) : List Str × Bool :=
  if k ∈ ks then (ks, false) else (ks ++ [k], true)

/-! ## Key strings of the stack of table headers -/

/-- Inner loop of `get_key_parent`, src/internals/primitives.rs:59-67, over `keys[prev_end..]`. -/
def keyParentInner : List Str → Str → Str
  | [], kp => kp
  | [k], kp => if k ≠ root then kp ++ k else kp
  | k :: k' :: ks, kp => keyParentInner (k' :: ks) (if k ≠ root then kp ++ k ++ lit% "." else kp)

/-- Outer loop of `get_key_parent`, src/internals/primitives.rs:52-74, over the two stacks in parallel. -/
def keyParentLoop : List TableType → List Nat → Str → Nat → Out Str
  | _, [], kp, _ => .ok kp
  | [], _ :: _, _, _ => .panic .index
  | .std _ :: ts, _ :: is, kp, pe => keyParentLoop ts is kp pe
  | .arr t :: ts, idx :: is, kp, pe =>
    let kp := if kp ≠ [] then kp ++ lit% "." else kp
    let keys := lastKeys t
    let kp := keyParentInner (keys.drop pe) kp
    let kp := if is ≠ [] then kp ++ idxStr idx else kp
    keyParentLoop ts is kp keys.length

/-- `get_key_parent`, src/internals/primitives.rs:46-77. -/
def getKeyParent (tables : List TableType) (index : List Nat) : Out Str :=
  keyParentLoop tables index [] 0

/-- `key_has_value`, src/internals/primitives.rs:196-212. -/
def keyHasValue (m : KMap) (h : Heap) (key : Str) : Bool :=
  match m.get? key with
  | some ⟨some a, _⟩ => h[a]? ≠ some .table
  | _ => false

/-- Loop over the key parts of an array table, src/internals/primitives.rs:94-124, over `keys[prev_end..]`. -/
def arrKeyInner (m : KMap) : List Str → Str → Out Str
  | k :: k' :: ks, fk =>
    let fk := fk ++ k
    match m.get? fk with
    | none => .panic .keyNotInMap
    | some hv => match hv.subkeys with
      | .count c =>
        if fk = root then arrKeyInner m (k' :: ks) [] else arrKeyInner m (k' :: ks) (fk ++ lit% "[" ++ natStr c ++ lit% "].")
      | .keys names =>
        if k' ∈ names ∨ ks = [] then
          if fk = root then arrKeyInner m (k' :: ks) [] else arrKeyInner m (k' :: ks) (fk ++ lit% ".")
        else .panic .keyNotInMap
  | _, fk => .ok fk

/-- Loop over the key parts of a standard table, src/internals/primitives.rs:176-186, over `keys[prev_end..]`:
full key so far, validity, parent key. -/
def stdKeyInner (m : KMap) (h : Heap) : List Str → Str → Bool → Str → Str × Bool × Str
  | k :: k' :: ks, fk, valid, pk =>
    if k = root then stdKeyInner m h (k' :: ks) fk valid pk
    else
      let fk := fk ++ k
      let valid := valid && !keyHasValue m h fk
      let pk := if ks = [] then fk else pk
      stdKeyInner m h (k' :: ks) (fk ++ lit% ".") valid pk
  | _, fk, valid, pk => (fk, valid, pk)

/-- The two tests of `hash_value.value`, src/internals/primitives.rs:131-152: invalid if there is a value, or sub-keys are names. -/
def arrTableValid (m : KMap) (fk : Str) (valid : Bool) : Bool :=
  match m.get? fk with
  | some ⟨some _, _⟩ => false
  | some ⟨none, .keys _⟩ => false
  | some ⟨none, .count _⟩ => valid
  | none => valid

/-- The index of an array table, src/internals/primitives.rs:153-170: one less than the number of its entries, if there are any. -/
def arrTableIndex (m : KMap) (fk : Str) (idx : Nat) : Out Nat :=
  match m.get? fk with
  | some ⟨_, .count c⟩ => if c = 0 then .panic .underflow else .ok (c - 1)
  | _ => .ok idx

/-- Outer loop of `get_array_table_key`, src/internals/primitives.rs:88-191. -/
def arrayTableKeyLoop (m : KMap) (h : Heap) : List TableType → List Nat → Str → Nat → Bool → Str → Out (Bool × Str × Str)
  | _, [], fk, _, valid, pk => .ok (valid, fk, pk)
  | [], _ :: _, _, _, _, _ => .panic .index
  | .arr t :: ts, idx :: is, fk, pe, valid, _pk => do
    let keys := lastKeys t
    let fk ← arrKeyInner m (keys.drop pe) fk
    let fk := fk ++ keys.getLastD []
    let valid := arrTableValid m fk valid
    let index ← arrTableIndex m fk idx
    if is ≠ [] then arrayTableKeyLoop m h ts is (fk ++ lit% "[" ++ natStr index ++ lit% "].") keys.length valid _pk
    else arrayTableKeyLoop m h ts is (fk ++ idxStr index) keys.length valid fk
  | .std t :: ts, _ :: is, fk, pe, valid, pk =>
    let keys := lastKeys t
    let (fk, valid, pk) := stdKeyInner m h (keys.drop pe) fk valid pk
    let fk := fk ++ keys.getLastD []
    let valid := valid && !keyHasValue m h fk
    arrayTableKeyLoop m h ts is fk pe valid pk

/-- `get_array_table_key`, src/internals/primitives.rs:80-194: (valid, full key, parent key). -/
def getArrayTableKey (m : KMap) (h : Heap) (tables : List TableType) (index : List Nat) : Out (Bool × Str × Str) :=
  arrayTableKeyLoop m h tables index [] 0 true root

/-- `key_has_children_with_values`, src/internals/primitives.rs:214-240. -/
def keyHasChildrenWithValues (m : KMap) (h : Heap) (key : Str) : Out Bool :=
  if key = root then .ok false
  else match m.get? key with
    | none => .ok false
    | some hv => match hv.subkeys with
      | .count c => if c > 0 then .panic .stdTableIndexed else .ok false
      | .keys ks => .ok (ks.any fun k => keyHasValue m h (key ++ lit% "." ++ k))

/-- Loop of `get_keychain_key`, src/internals/primitives.rs:246-259. -/
def keychainLoop : List Key → Str → Str → Str × Str
  | [], key, parent => (key, parent)
  | k :: ks, key, parent =>
    let key := match k with
      | .str s => (if key ≠ [] then key ++ lit% "." else key) ++ s
      | .idx i => key ++ idxStr i
    let parent := match ks with
      | [_] => key
      | _ => parent
    keychainLoop ks key parent

/-- `get_keychain_key`, src/internals/primitives.rs:242-261: (key, parent key). -/
def getKeychainKey (kc : List Key) : Str × Str := keychainLoop kc [] []

/-- `get_full_key`, src/internals/primitives.rs:263-284. -/
def getFullKey (m : KMap) (h : Heap) (tables : List TableType) (index : List Nat) (kc : List Key) : Out (Bool × Str × Str) := do
  let (valid, ak, _) ← getArrayTableKey m h tables index
  let (ck, pck) := getKeychainKey kc
  let full := if ak ≠ [] then ak ++ lit% "." ++ ck else ck
  let parent := if ak ≠ [] then ak ++ (if pck ≠ [] then lit% "." else []) ++ pck else pck
  .ok (valid, full, parent)

/-! ## Entering a value -/

/-- Update of the parent entry at the end of `insert_keyval_into_map`, src/internals/primitives.rs:393-420.
`last` is the top of the key chain. -/
def updateParent (m : KMap) (parent : Str) (last : Key) : KMap :=
  match m.get? parent with
  | some hv => match hv.subkeys, last with
    | .count c, _ => m.insert parent { hv with subkeys := .count (c + 1) }
    | .keys ks, .str s => m.insert parent { hv with subkeys := .keys (insertUniq ks s).1 }
    | .keys _, .idx _ => m
  | none => match last with
    | .idx _ => m.insert parent ⟨none, .count 1⟩
    | .str s => m.insert parent ⟨none, .keys [s]⟩

/-- The full and the parent key of the value being entered, src/internals/primitives.rs:294-366.
The `lastTable` is pushed on the stack when it is a standard table (the stack of indices is not). -/
def insertKeys (st : PState) : Out (Str × Str) :=
  match st.lastTable with
  | none =>
    let (full, parent) := getKeychainKey st.keychain
    .ok (full, if parent = [] then root else parent)
  | some (.std t) => do
    let (_, full, parent) ← getFullKey st.map st.heap (st.lastArrayTables ++ [.std t]) st.lastArrayTablesIndex st.keychain
    .ok (full, parent)
  | some (.arr _) => do
    let (_, full, parent) ← getFullKey st.map st.heap st.lastArrayTables st.lastArrayTablesIndex st.keychain
    .ok (full, parent)

/-- `insert_keyval_into_map`, src/internals/primitives.rs:286-422. -/
def insertKeyval (st : PState) (val : Addr) : Out PState := do
  let (full, parent) ← insertKeys st
  match st.map.get? full with
  | some ⟨some _, _⟩ => do
    let v ← toVal st.heap val
    .ok { st with errors := st.errors ++ [.duplicateKey full st.lineCount 0 v] }
  | r => do
    let m := match r with
      | some hv => st.map.insert full { hv with value := some val }
      | none => match st.heap[val]? with
        | some (.itab _ _) => st.map.insert full ⟨some val, .keys []⟩
        | _ => st.map.insert full ⟨some val, .count 0⟩
    match st.keychain.getLast? with
    | none => .panic .underflow
    | some last => .ok { st with map := updateParent m parent last }

/-! ## Table headers -/

/-- `is_top_std_table`, src/internals/objects.rs:48-59. -/
def isTopStd (tables : List TableType) : Bool :=
  match tables.getLast? with
  | some (.std _) => true
  | _ => false

/-- `equal_key_length`, src/internals/objects.rs:61-76. -/
def equalKeyLength (t : TableType) (tables : List TableType) : Bool :=
  match tables.getLast? with
  | some t' => t.table.keys.length = t'.table.keys.length
  | none => false

/-- Loop of `add_implicit_tables`, src/internals/objects.rs:108-148, over `tb.keys[start..]`. -/
def implicitLoop : List Str → KMap → Str → Bool → Out KMap
  | [], m, _, _ => .ok m
  | k :: ks, m, lastKey, first =>
    let step : Out (KMap × Bool × Bool) :=
      match m.get? lastKey with
      | none => .ok (m, false, first)
      | some hv => match hv.subkeys with
        | .keys names =>
          let (names', ins) := insertUniq names k
          .ok (m.insert lastKey { hv with subkeys := .keys names' }, ins, false)
        | .count c =>
          if first then .ok (m.insert lastKey { hv with subkeys := .count (c + 1) }, true, false)
          else .panic .implicitStd
    match step with
    | .panic x => .panic x
    | .fuel => .fuel
    | .ok (m, ins, first) =>
      if ks = [] then .ok m
      else
        let lastKey := if lastKey ≠ root then lastKey ++ lit% "." ++ k else k
        let m := if ins then m.insert lastKey ⟨none, .keys []⟩ else m
        implicitLoop ks m lastKey first

/-- `add_implicit_tables`, src/internals/objects.rs:78-157. -/
def addImplicitTables (m : KMap) (h : Heap) (tables : List TableType) (index : List Nat) (t : TableType) : Out KMap := do
  let (valid, lastKey, _) ← getArrayTableKey m h tables index
  if !valid then .ok m
  else
    let (lastLen, lastKey) := match tables.getLast? with
      | none => (1, lastKey ++ root)
      | some l => (l.table.keys.length, lastKey)
    let start := if lastKey = root then lastLen - 1 else lastLen
    implicitLoop ((t.table.keys.map (·.key)).drop start) m lastKey true

/-- `increment_array_table_index`, src/internals/objects.rs:159-173. -/
def incrementArrayTableIndex (m : KMap) (tables : List TableType) (index : List Nat) : Out (KMap × List Nat) := do
  let parent ← getKeyParent tables index
  let m := match m.get? parent with
    | some ⟨v, .count c⟩ => m.insert parent ⟨v, .count (c + 1)⟩
    | _ => m
  match index.getLast? with
  | none => .panic .underflow
  | some i => .ok (m, index.dropLast ++ [i + 1])

/-- `add_to_table_set`, src/internals/objects.rs:175-194; its result is not used. -/
def addToTableSet (m : KMap) (tables : List TableType) (index : List Nat) (key : Str) : Out KMap := do
  let parent ← getKeyParent tables index
  match m.get? parent with
  | some ⟨v, .keys ks⟩ => .ok (m.insert parent ⟨v, .keys (insertUniq ks key).1⟩)
  | _ => .ok m

/-- The loops that pop headers off the two stacks until `stop` holds of the top (src/internals/objects.rs:252-261 and 385-390).
The first argument bounds the number of pops by the height of the stack. -/
def popLoop (stop : TableType → Bool) : Nat → List TableType → List Nat → List TableType × List Nat
  | 0, ts, is => (ts, is)
  | n + 1, ts, is => match ts.getLast? with
    | none => (ts, is)
    | some t => if stop t then (ts, is) else popLoop stop n ts.dropLast is.dropLast

/-- Whether the key of the header is the key of the top of the stack (src/internals/objects.rs:246 and 265). -/
def sameTop (t : TableType) (ts : List TableType) : Bool :=
  match ts.getLast? with
  | some top => t.keyStr = top.keyStr
  | none => false

/-- The pops of `std_table` before anything is looked up, src/internals/objects.rs:234-264. -/
def stdPop (t : TableType) (ts : List TableType) (is : List Nat) : List TableType × List Nat :=
  let pop := isTopStd ts || equalKeyLength t ts
  let ts := if pop then ts.dropLast else ts
  let is := if pop then is.dropLast else is
  if sameTop t ts then (ts, is) else popLoop (fun top => t.isSubtableOf top) ts.length ts is

/-- Whether the key already is a table with a header (src/internals/objects.rs:279-290). -/
def tableDefined (m : KMap) (h : Heap) (key : Str) : Bool :=
  match m.get? key with
  | some ⟨some a, _⟩ => h[a]? = some .table
  | _ => false

/-- The checks of `std_table`, src/internals/objects.rs:265-292: whether the header is an error, the key of the table and the
key of its parent. -/
def stdCheck (m : KMap) (h : Heap) (t : TableType) (ts : List TableType) (is : List Nat) : Out (Bool × Str × Str) := do
  if sameTop t ts then .ok (true, [], root)
  else do
    let (valid, tableKey, parentKey) ← getArrayTableKey m h (ts ++ [t]) (is ++ [0])
    let bad ← (if !valid then Out.ok true else keyHasChildrenWithValues m h parentKey)
    .ok (bad || tableDefined m h tableKey, tableKey, parentKey)

/-- The new entry of a table with a header, src/internals/objects.rs:315-325. -/
def stdEntry (m : KMap) (a : Addr) (tableKey : Str) : KMap :=
  match m.get? tableKey with
  | some hv => m.insert tableKey { hv with value := some a }
  | none => m.insert tableKey ⟨some a, .keys []⟩

/-- The name of a new table is added to its parent, src/internals/objects.rs:326-331. -/
def stdParent (m : KMap) (parentKey lastName : Str) : Out KMap :=
  match m.get? parentKey with
  | some ⟨v, .keys ks⟩ => .ok (m.insert parentKey ⟨v, .keys (insertUniq ks lastName).1⟩)
  | some ⟨_, .count _⟩ => .panic .addKeyToArray
  | none => .ok m

/-- The closure of `std_table`, src/internals/objects.rs:226-338, after the header has been read. -/
def stdTableAct (t : Table) (st : PState) : Out (PState × TableType) := do
  let keysLen := t.keys.length
  let res := TableType.std t
  let lastName := (t.keys.map (·.key)).getLastD []
  if st.keychain.length < keysLen then .panic .underflow
  else
    let kc := st.keychain.take (st.keychain.length - keysLen)
    let p := stdPop res st.lastArrayTables st.lastArrayTablesIndex
    let (error, tableKey, parentKey) ← stdCheck st.map st.heap res p.1 p.2
    if error then do
      let (_, key, _) ← getArrayTableKey st.map st.heap (p.1 ++ [res]) (p.2 ++ [0])
      .ok ({ st with keychain := kc, lastArrayTables := p.1, lastArrayTablesIndex := p.2,
                     errors := st.errors ++ [.invalidTable key st.lineCount 0 []], arrayError := true }, res)
    else do
      let m ← addImplicitTables st.map st.heap p.1 p.2 res
      let m ← addToTableSet m p.1 p.2 lastName
      let m ← stdParent (stdEntry m st.heap.length tableKey) parentKey lastName
      .ok ({ st with keychain := kc, lastArrayTables := p.1 ++ [res], lastArrayTablesIndex := p.2 ++ [0],
                     arrayError := false, map := m, heap := st.heap ++ [TVal.table], lastTable := some res }, res)

/-- A header that starts a new array of tables is put on the stacks, src/internals/objects.rs:379-382, 398-401 and 416-419. -/
def arrPush (m : KMap) (h : Heap) (t : TableType) (ts : List TableType) (is : List Nat) :
    Out (KMap × List TableType × List Nat) := do
  let m ← addImplicitTables m h ts is t
  .ok (m, ts ++ [t], is ++ [0])

/-- The top of the stacks gets one more element, src/internals/objects.rs:371-374 and 392-395. -/
def arrNext (m : KMap) (ts : List TableType) (is : List Nat) : Out (KMap × List TableType × List Nat) := do
  let (m, is) ← incrementArrayTableIndex m ts is
  .ok (m, ts, is)

/-- A header that was popped off the stacks comes back, src/internals/objects.rs:396-411. -/
def arrAgain (m : KMap) (h : Heap) (t : TableType) (ts : List TableType) (is : List Nat) :
    Out (KMap × List TableType × List Nat) := do
  let (m, ts, is) ← arrPush m h t ts is
  let parent ← getKeyParent ts is
  if m.contains parent then arrNext m ts is else .ok (m, ts, is)

/-- Where `array_table` puts its header, src/internals/objects.rs:364-420. -/
def arrPlace (m : KMap) (h : Heap) (t : TableType) (ts : List TableType) (is : List Nat) :
    Out (KMap × List TableType × List Nat) :=
  match ts.getLast? with
  | none => arrPush m h t ts is
  | some top =>
    if t.keyStr = top.keyStr then arrNext m ts is
    else if t.isSubtableOf top then arrPush m h t ts is
    else
      let p := popLoop (fun top => decide (t.keyStr = top.keyStr)) ts.length ts is
      if p.1 ≠ [] then arrNext m p.1 p.2 else arrAgain m h t p.1 p.2

/-- The closure of `array_table`, src/internals/objects.rs:351-445, after the header has been read. -/
def arrayTableAct (t : Table) (st : PState) : Out (PState × TableType) := do
  let keysLen := t.keys.length
  let res := TableType.arr t
  if st.keychain.length < keysLen then .panic .underflow
  else
    let kc := st.keychain.take (st.keychain.length - keysLen)
    let pop := isTopStd st.lastArrayTables
    let ts := if pop then st.lastArrayTables.dropLast else st.lastArrayTables
    let is := if pop then st.lastArrayTablesIndex.dropLast else st.lastArrayTablesIndex
    let (m, ts, is) ← arrPlace st.map st.heap res ts is
    let (valid, full, parent) ← getArrayTableKey m st.heap ts is
    if !valid then
      .ok ({ st with keychain := kc, lastArrayTables := ts, lastArrayTablesIndex := is, arrayError := false, map := m,
                     errors := st.errors ++ [.invalidTable full st.lineCount 0 []] }, res)
    else
      let m := if m.contains parent then m else m.insert parent ⟨none, .count 1⟩
      let m := m.insert full ⟨none, .keys []⟩
      .ok ({ st with keychain := kc, lastArrayTables := ts, lastArrayTablesIndex := is, arrayError := false, map := m,
                     lastTable := some res }, res)

end Tomllib
