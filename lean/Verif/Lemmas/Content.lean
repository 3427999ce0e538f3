import Verif.Lemmas.Doc
import Verif.Spec.Content
/-!
# Layout does not matter to what is stored

`PState.norm` forgets blanks, line breaks, comments and line numbers.  Whatever the parser does, it does the same on states and trees that
agree but for these.
-/

namespace Tomllib

/-! ## Forgetting the layout -/

def ArrayValue.bare (v : ArrayValue) : ArrayValue := ⟨v.val, none, []⟩
def TableKeyVal.bare (v : TableKeyVal) : TableKeyVal := ⟨⟨v.keyval.key, ⟨[], []⟩, v.keyval.val⟩, none, []⟩
def TVal.bare : TVal → TVal
  | .arr vs _ _ => .arr (vs.map ArrayValue.bare) [] []
  | .itab kvs _ => .itab (kvs.map TableKeyVal.bare) ⟨[], []⟩
  | v => v
def WSKeySep.bare (k : WSKeySep) : WSKeySep := ⟨⟨[], []⟩, k.key⟩
def Table.bare (t : Table) : Table := ⟨t.keys.map WSKeySep.bare⟩
def TableType.bare : TableType → TableType
  | .std t => .std t.bare
  | .arr t => .arr t.bare
def PState.norm (st : PState) : PState :=
  { st with errors := st.errors.map ParseError.bare, lineCount := 0, lastArrayTables := st.lastArrayTables.map TableType.bare,
            lastTable := st.lastTable.map TableType.bare, heap := st.heap.map TVal.bare }

@[simp] theorem Out.map'_ok {α β : Type} (f : α → β) (a : α) : (Out.ok a).map' f = .ok (f a) := rfl
@[simp] theorem Out.map'_panic {α β : Type} (f : α → β) (x : Panic) : (Out.panic x).map' f = .panic x := rfl
@[simp] theorem Out.map'_fuel {α β : Type} (f : α → β) : (Out.fuel : Out α).map' f = .fuel := rfl

theorem Out.map'_bind {α β γ : Type} (x : Out α) (f : α → Out β) (g : β → γ) : (x.bind f).map' g = x.bind fun a => (f a).map' g := by
  cases x <;> rfl
theorem Out.bind_map' {α β γ : Type} (x : Out α) (f : α → β) (g : β → Out γ) : (x.map' f).bind g = x.bind fun a => g (f a) := by
  cases x <;> rfl

@[simp] theorem TVal.bare_table {v : TVal} : v.bare = .table ↔ v = .table := by cases v <;> simp [TVal.bare]
@[simp] theorem TVal.bare_arrayType (v : TVal) : v.bare.arrayType = v.arrayType := by cases v <;> rfl

theorem getElem?_bare (h : Heap) (a : Addr) : (h.map TVal.bare)[a]? = (h[a]?).map TVal.bare := by simp

theorem table_bare (h : Heap) (a : Addr) : (h.map TVal.bare)[a]? = some .table ↔ h[a]? = some .table := by
  rw [getElem?_bare]
  cases h[a]? <;> simp

theorem toValAVs_bare {r r' : Addr → Out Value} (h : ∀ a, r a = r' a) : ∀ vs : List ArrayValue,
    toValAVs r (vs.map ArrayValue.bare) = toValAVs r' vs
  | [] => rfl
  | v :: vs => by simp [toValAVs, toValAVs_bare h vs, h, ArrayValue.bare]

theorem toValTKVs_bare {r r' : Addr → Out Value} (h : ∀ a, r a = r' a) : ∀ vs : List TableKeyVal,
    toValTKVs r (vs.map TableKeyVal.bare) = toValTKVs r' vs
  | [] => rfl
  | v :: vs => by simp [toValTKVs, toValTKVs_bare h vs, h, TableKeyVal.bare]

theorem toValAt_bare (h : Heap) : ∀ (f : Nat) (a : Addr), toValAt f (h.map TVal.bare) a = toValAt f h a
  | 0, _ => rfl
  | f + 1, a => by
    rw [toValAt, toValAt, getElem?_bare]
    cases h[a]? with
    | none => rfl
    | some v => cases v <;> simp [TVal.bare, toValTV, toValAVs_bare (toValAt_bare h f), toValTKVs_bare (toValAt_bare h f)]

theorem toVal_bare (h : Heap) (a : Addr) : toVal (h.map TVal.bare) a = toVal h a := by
  simp [toVal, toValAt_bare]

/-! ## Keys -/

@[simp] theorem Table.bare_names (t : Table) : t.bare.keys.map (·.key) = t.keys.map (·.key) := by
  simp [Table.bare, WSKeySep.bare, Function.comp_def]
@[simp] theorem Table.bare_length (t : Table) : t.bare.keys.length = t.keys.length := by simp [Table.bare]
@[simp] theorem lastKeys_bare (t : Table) : lastKeys t.bare = lastKeys t := by simp [lastKeys]
@[simp] theorem TableType.bare_keyStr (t : TableType) : t.bare.keyStr = t.keyStr := by
  cases t <;> simp [TableType.keyStr, TableType.bare, TableType.table]
@[simp] theorem TableType.bare_table (t : TableType) : t.bare.table = t.table.bare := by cases t <;> rfl
@[simp] theorem TableType.bare_sub (t t' : TableType) : t.bare.isSubtableOf t'.bare = t.isSubtableOf t' := by
  simp [TableType.isSubtableOf]

theorem keyParentLoop_bare : ∀ (ts : List TableType) (is : List Nat) (kp : Str) (pe : Nat),
    keyParentLoop (ts.map TableType.bare) is kp pe = keyParentLoop ts is kp pe
  | _, [], _, _ => by simp [keyParentLoop]
  | [], _ :: _, _, _ => rfl
  | .std _ :: ts, _ :: is, kp, pe => by
    simp only [List.map_cons, TableType.bare, keyParentLoop]
    exact keyParentLoop_bare ts is kp pe
  | .arr t :: ts, idx :: is, kp, pe => by
    simp only [List.map_cons, TableType.bare, keyParentLoop, lastKeys_bare]
    exact keyParentLoop_bare ts is _ _

theorem getKeyParent_bare (ts : List TableType) (is : List Nat) : getKeyParent (ts.map TableType.bare) is = getKeyParent ts is :=
  keyParentLoop_bare ts is [] 0

theorem keyHasValue_bare (m : KMap) (h : Heap) (k : Str) : keyHasValue m (h.map TVal.bare) k = keyHasValue m h k := by
  unfold keyHasValue
  split
  · simp only [ne_eq, table_bare]
  · rfl

theorem stdKeyInner_bare (m : KMap) (h : Heap) : ∀ (ks : List Str) (fk : Str) (v : Bool) (pk : Str),
    stdKeyInner m (h.map TVal.bare) ks fk v pk = stdKeyInner m h ks fk v pk
  | [], _, _, _ => rfl
  | [_], _, _, _ => rfl
  | k :: k' :: ks, fk, v, pk => by
    simp only [stdKeyInner, keyHasValue_bare]
    split
    · exact stdKeyInner_bare m h (k' :: ks) _ _ _
    · exact stdKeyInner_bare m h (k' :: ks) _ _ _

theorem arrayTableKeyLoop_bare (m : KMap) (h : Heap) : ∀ (ts : List TableType) (is : List Nat) (fk : Str) (pe : Nat) (v : Bool) (pk : Str),
    arrayTableKeyLoop m (h.map TVal.bare) (ts.map TableType.bare) is fk pe v pk = arrayTableKeyLoop m h ts is fk pe v pk
  | _, [], _, _, _, _ => by simp [arrayTableKeyLoop]
  | [], _ :: _, _, _, _, _ => rfl
  | .arr t :: ts, idx :: is, fk, pe, v, pk => by
    simp only [List.map_cons, TableType.bare, arrayTableKeyLoop, lastKeys_bare, arrayTableKeyLoop_bare m h ts is]
  | .std t :: ts, _ :: is, fk, pe, v, pk => by
    simp only [List.map_cons, TableType.bare, arrayTableKeyLoop, lastKeys_bare, arrayTableKeyLoop_bare m h ts is, stdKeyInner_bare, keyHasValue_bare]

theorem getArrayTableKey_bare (m : KMap) (h : Heap) (ts : List TableType) (is : List Nat) :
    getArrayTableKey m (h.map TVal.bare) (ts.map TableType.bare) is = getArrayTableKey m h ts is :=
  arrayTableKeyLoop_bare m h ts is [] 0 true root

theorem keyHasChildrenWithValues_bare (m : KMap) (h : Heap) (k : Str) :
    keyHasChildrenWithValues m (h.map TVal.bare) k = keyHasChildrenWithValues m h k := by
  simp only [keyHasChildrenWithValues, keyHasValue_bare]

theorem getFullKey_bare (m : KMap) (h : Heap) (ts : List TableType) (is : List Nat) (kc : List Key) :
    getFullKey m (h.map TVal.bare) (ts.map TableType.bare) is kc = getFullKey m h ts is kc := by
  simp only [getFullKey, getArrayTableKey_bare]

/-! ## Values -/

theorem insertKeys_norm (st : PState) : insertKeys st.norm = insertKeys st := by
  unfold insertKeys
  cases h : st.lastTable with
  | none => simp [PState.norm, h]
  | some t =>
    cases t with
    | std t =>
      have : st.norm.lastTable = some (.std t.bare) := by simp [PState.norm, h, TableType.bare]
      rw [this]
      have := getFullKey_bare st.map st.heap (st.lastArrayTables ++ [.std t]) st.lastArrayTablesIndex st.keychain
      simp only [List.map_append, List.map_cons, List.map_nil, TableType.bare] at this
      simp only [PState.norm, this]
    | arr t =>
      have : st.norm.lastTable = some (.arr t.bare) := by simp [PState.norm, h, TableType.bare]
      rw [this]
      simp only [PState.norm, getFullKey_bare]

theorem insertKeyval_norm (st : PState) (a : Addr) : insertKeyval st.norm a = (insertKeyval st a).map' PState.norm := by
  simp only [insertKeyval, insertKeys_norm, Out.bind_eq, Out.map'_bind]
  congr 1
  funext x
  obtain ⟨full, parent⟩ := x
  dsimp only
  rw [show st.norm.map = st.map from rfl, show st.norm.keychain = st.keychain from rfl]
  split
  · simp only [Out.map'_bind, show st.norm.heap = st.heap.map TVal.bare from rfl, toVal_bare]
    congr 1
    funext v
    simp [PState.norm, ParseError.bare]
  · simp only [show st.norm.heap = st.heap.map TVal.bare from rfl]
    cases hk : st.keychain.getLast? with
    | none => rfl
    | some k =>
      simp only [getElem?_bare]
      cases st.heap[a]? with
      | none => simp [PState.norm]
      | some v => cases v <;> simp [PState.norm, TVal.bare]

theorem getLast?_map {α β : Type} (f : α → β) (l : List α) : (l.map f).getLast? = l.getLast?.map f := by simp

theorem checkMixed_norm (t : ArrayType) (st : PState) : checkMixed t st.norm = (checkMixed t st).map' PState.norm := by
  simp only [checkMixed, show st.norm.lastArrayType = st.lastArrayType from rfl, show st.norm.map = st.map from rfl,
    show st.norm.heap = st.heap.map TVal.bare from rfl, show st.norm.lastArrayTables = st.lastArrayTables.map TableType.bare from rfl,
    show st.norm.lastArrayTablesIndex = st.lastArrayTablesIndex from rfl, show st.norm.keychain = st.keychain from rfl, getFullKey_bare,
    show st.norm.errors = st.errors.map ParseError.bare from rfl, getLast?_map]
  split
  · rfl
  · split
    · rfl
    · split
      · rfl
      · rfl
      next b full parent _ =>
        cases st.errors.getLast? with
        | none => simp [PState.norm, ParseError.bare]
        | some e =>
          cases e with
          | mixedArray k a b =>
            show (if (!(k.isPrefixOf full)) = true then _ else _) = Out.map' _ (if (!(k.isPrefixOf full)) = true then _ else _)
            by_cases hb : k.isPrefixOf full = true
            · rw [hb]; rfl
            · rw [Bool.not_eq_true] at hb
              rw [hb]
              simp [PState.norm, ParseError.bare]
          | duplicateKey => simp [Option.map, ParseError.bare, PState.norm]
          | invalidTable => simp [Option.map, ParseError.bare, PState.norm]
          | invalidDateTime => simp [Option.map, ParseError.bare, PState.norm]

theorem arrayValueAct_norm (a : Addr) (st : PState) : arrayValueAct a st.norm = (arrayValueAct a st).map' PState.norm := by
  simp only [arrayValueAct, Out.bind_eq, show st.norm.heap = st.heap.map TVal.bare from rfl, getElem?_bare]
  cases st.heap[a]? with
  | none => rfl
  | some v =>
    simp only [Option.map, Out.bind, TVal.bare_arrayType]
    cases v.arrayType with
    | panic x => rfl
    | fuel => rfl
    | ok t =>
      simp only [checkMixed_norm]
      cases checkMixed t st with
      | panic x => rfl
      | fuel => rfl
      | ok st1 =>
        simp only [Out.map'_ok]
        have := insertKeyval_norm { st1 with lastArrayType := st1.lastArrayType.dropLast ++ [t] } a
        rw [show PState.norm { st1 with lastArrayType := st1.lastArrayType.dropLast ++ [t] } =
          { st1.norm with lastArrayType := st1.norm.lastArrayType.dropLast ++ [t] } from rfl] at this
        rw [this]
        cases insertKeyval { st1 with lastArrayType := st1.lastArrayType.dropLast ++ [t] } a with
        | panic x => rfl
        | fuel => rfl
        | ok st2 =>
          simp only [Out.map'_ok, show st2.norm.keychain = st2.keychain from rfl]
          cases st2.keychain.getLast? <;> rfl

theorem keyvalAct_norm (k : Str) (a : Addr) (st : PState) : keyvalAct k a st.norm = (keyvalAct k a st).map' PState.norm := by
  simp only [keyvalAct, Out.bind_eq, show st.norm.arrayError = st.arrayError from rfl, insertKeyval_norm, Out.map'_bind]
  split
  · simp only [show st.norm.errors = st.errors.map ParseError.bare from rfl, getLast?_map, show st.norm.heap = st.heap.map TVal.bare from rfl, toVal_bare]
    cases he : st.errors.getLast? with
    | none => rfl
    | some e =>
      cases e with
      | invalidTable key l c m =>
        simp only [Option.map, ParseError.bare]
        cases toVal st.heap a with
        | panic x => rfl
        | fuel => rfl
        | ok v => simp [Out.bind, PState.norm, ParseError.bare]
      | duplicateKey => rfl
      | mixedArray => rfl
      | invalidDateTime => rfl
  · rw [Out.bind_map']
    rfl

/-! ## Headers -/

theorem isTopStd_bare (ts : List TableType) : isTopStd (ts.map TableType.bare) = isTopStd ts := by
  simp only [isTopStd, getLast?_map]
  cases ts.getLast? with
  | none => rfl
  | some t => cases t <;> rfl

theorem equalKeyLength_bare (t : TableType) (ts : List TableType) : equalKeyLength t.bare (ts.map TableType.bare) = equalKeyLength t ts := by
  simp only [equalKeyLength, getLast?_map]
  cases ts.getLast? with
  | none => rfl
  | some t' => simp

theorem sameTop_bare (t : TableType) (ts : List TableType) : sameTop t.bare (ts.map TableType.bare) = sameTop t ts := by
  simp only [sameTop, getLast?_map]
  cases ts.getLast? with
  | none => rfl
  | some t' => simp

theorem popLoop_bare {s s' : TableType → Bool} (h : ∀ t, s' t.bare = s t) : ∀ (n : Nat) (ts : List TableType) (is : List Nat),
    popLoop s' n (ts.map TableType.bare) is = ((popLoop s n ts is).1.map TableType.bare, (popLoop s n ts is).2)
  | 0, ts, is => rfl
  | n + 1, ts, is => by
    simp only [popLoop, getLast?_map]
    cases ts.getLast? with
    | none => rfl
    | some t =>
      simp only [Option.map, h]
      split
      · rfl
      · rw [← List.map_dropLast]
        exact popLoop_bare h n ts.dropLast is.dropLast

theorem stdPop_bare (t : TableType) (ts : List TableType) (is : List Nat) :
    stdPop t.bare (ts.map TableType.bare) is = ((stdPop t ts is).1.map TableType.bare, (stdPop t ts is).2) := by
  simp only [stdPop, isTopStd_bare, equalKeyLength_bare]
  have : (if isTopStd ts || equalKeyLength t ts then (ts.map TableType.bare).dropLast else ts.map TableType.bare) =
      (if isTopStd ts || equalKeyLength t ts then ts.dropLast else ts).map TableType.bare := by
    split <;> simp
  rw [this, sameTop_bare, List.length_map]
  generalize (if isTopStd ts || equalKeyLength t ts then ts.dropLast else ts) = ts1
  generalize (if isTopStd ts || equalKeyLength t ts then is.dropLast else is) = is1
  cases sameTop t ts1 with
  | true => rfl
  | false => exact popLoop_bare (fun t' => TableType.bare_sub t t') _ _ _

theorem tableDefined_bare (m : KMap) (h : Heap) (k : Str) : tableDefined m (h.map TVal.bare) k = tableDefined m h k := by
  unfold tableDefined
  split
  · simp only [table_bare]
  · rfl

theorem stdCheck_bare (m : KMap) (h : Heap) (t : TableType) (ts : List TableType) (is : List Nat) :
    stdCheck m (h.map TVal.bare) t.bare (ts.map TableType.bare) is = stdCheck m h t ts is := by
  have := getArrayTableKey_bare m h (ts ++ [t]) (is ++ [0])
  simp only [List.map_append, List.map_cons, List.map_nil] at this
  simp only [stdCheck, sameTop_bare, this, keyHasChildrenWithValues_bare, tableDefined_bare]

theorem addImplicitTables_bare (m : KMap) (h : Heap) (ts : List TableType) (is : List Nat) (t : TableType) :
    addImplicitTables m (h.map TVal.bare) (ts.map TableType.bare) is t.bare = addImplicitTables m h ts is t := by
  simp only [addImplicitTables, getArrayTableKey_bare, getLast?_map, TableType.bare_table, Table.bare_names]
  cases ts.getLast? with
  | none => rfl
  | some t' => simp

theorem stdTableAct_norm (t : Table) (st : PState) :
    stdTableAct t.bare st.norm = (stdTableAct t st).map' fun x => (x.1.norm, x.2.bare) := by
  simp only [stdTableAct, Table.bare_length, Table.bare_names, show st.norm.keychain = st.keychain from rfl, Out.bind_eq]
  split
  · rfl
  · have hp : stdPop (.std t.bare) st.norm.lastArrayTables st.norm.lastArrayTablesIndex =
        ((stdPop (.std t) st.lastArrayTables st.lastArrayTablesIndex).1.map TableType.bare, (stdPop (.std t) st.lastArrayTables st.lastArrayTablesIndex).2) :=
      stdPop_bare (.std t) st.lastArrayTables st.lastArrayTablesIndex
    rw [hp]
    generalize stdPop (.std t) st.lastArrayTables st.lastArrayTablesIndex = p
    have hc : stdCheck st.norm.map st.norm.heap (.std t.bare) (p.1.map TableType.bare) p.2 = stdCheck st.map st.heap (.std t) p.1 p.2 :=
      stdCheck_bare st.map st.heap (.std t) p.1 p.2
    dsimp only
    rw [hc, Out.map'_bind]
    congr 1
    funext x
    obtain ⟨error, tableKey, parentKey⟩ := x
    dsimp only
    split
    · have hk := getArrayTableKey_bare st.map st.heap (p.1 ++ [.std t]) (p.2 ++ [0])
      simp only [List.map_append, List.map_cons, List.map_nil, TableType.bare] at hk
      rw [show st.norm.map = st.map from rfl, show st.norm.heap = st.heap.map TVal.bare from rfl, hk, Out.map'_bind]
      congr 1
      funext x
      simp [PState.norm, ParseError.bare, TableType.bare]
    · have hm : addImplicitTables st.norm.map st.norm.heap (p.1.map TableType.bare) p.2 (.std t.bare) = addImplicitTables st.map st.heap p.1 p.2 (.std t) :=
        addImplicitTables_bare st.map st.heap p.1 p.2 (.std t)
      rw [hm, Out.map'_bind]
      congr 1
      funext m
      rw [Out.map'_bind]
      have : addToTableSet m (p.1.map TableType.bare) p.2 = addToTableSet m p.1 p.2 := by
        funext k; simp only [addToTableSet, getKeyParent_bare]
      rw [this]
      congr 1
      funext m
      rw [Out.map'_bind, show st.norm.heap.length = st.heap.length by simp [PState.norm]]
      congr 1
      funext m
      simp [PState.norm, TableType.bare, TVal.bare]

theorem incrementArrayTableIndex_bare (m : KMap) (ts : List TableType) (is : List Nat) :
    incrementArrayTableIndex m (ts.map TableType.bare) is = incrementArrayTableIndex m ts is := by
  simp only [incrementArrayTableIndex, getKeyParent_bare]

/-- The layout of a stack. -/
def bareStack (x : KMap × List TableType × List Nat) : KMap × List TableType × List Nat := (x.1, x.2.1.map TableType.bare, x.2.2)

theorem arrPush_bare (m : KMap) (h : Heap) (t : TableType) (ts : List TableType) (is : List Nat) :
    arrPush m (h.map TVal.bare) t.bare (ts.map TableType.bare) is = (arrPush m h t ts is).map' bareStack := by
  simp only [arrPush, addImplicitTables_bare, Out.bind_eq, Out.map'_bind]
  congr 1
  funext m
  simp [bareStack]

theorem arrNext_bare (m : KMap) (ts : List TableType) (is : List Nat) :
    arrNext m (ts.map TableType.bare) is = (arrNext m ts is).map' bareStack := by
  simp only [arrNext, incrementArrayTableIndex_bare, Out.bind_eq, Out.map'_bind]
  rfl

theorem arrAgain_bare (m : KMap) (h : Heap) (t : TableType) (ts : List TableType) (is : List Nat) :
    arrAgain m (h.map TVal.bare) t.bare (ts.map TableType.bare) is = (arrAgain m h t ts is).map' bareStack := by
  simp only [arrAgain, arrPush_bare, Out.bind_eq, Out.map'_bind, Out.bind_map']
  congr 1
  funext x
  obtain ⟨m, ts, is⟩ := x
  simp only [bareStack, getKeyParent_bare]
  congr 1
  funext k
  show (if SMap.contains m k = true then _ else _) = Out.map' _ (if SMap.contains m k = true then _ else _)
  by_cases hb : SMap.contains m k = true
  · rw [if_pos hb, if_pos hb]; exact arrNext_bare m ts is
  · rw [if_neg hb, if_neg hb]; rfl

theorem arrPlace_bare (m : KMap) (h : Heap) (t : TableType) (ts : List TableType) (is : List Nat) :
    arrPlace m (h.map TVal.bare) t.bare (ts.map TableType.bare) is = (arrPlace m h t ts is).map' bareStack := by
  simp only [arrPlace, getLast?_map]
  cases ts.getLast? with
  | none => exact arrPush_bare m h t ts is
  | some top =>
    simp only [Option.map, TableType.bare_keyStr, TableType.bare_sub, List.length_map]
    split
    · exact arrNext_bare m ts is
    · split
      · exact arrPush_bare m h t ts is
      · rw [popLoop_bare (s := fun top => decide (t.keyStr = top.keyStr)) (fun t' => by simp)]
        simp only [ne_eq, List.map_eq_nil_iff]
        split
        · exact arrNext_bare _ _ _
        · exact arrAgain_bare _ _ _ _ _

theorem arrayTableAct_norm (t : Table) (st : PState) :
    arrayTableAct t.bare st.norm = (arrayTableAct t st).map' fun x => (x.1.norm, x.2.bare) := by
  simp only [arrayTableAct, Table.bare_length, show st.norm.keychain = st.keychain from rfl, Out.bind_eq]
  split
  · rfl
  · rw [show isTopStd st.norm.lastArrayTables = isTopStd st.lastArrayTables from isTopStd_bare _]
    have : (if isTopStd st.lastArrayTables = true then st.norm.lastArrayTables.dropLast else st.norm.lastArrayTables) =
        (if isTopStd st.lastArrayTables = true then st.lastArrayTables.dropLast else st.lastArrayTables).map TableType.bare := by
      split <;> simp [PState.norm]
    rw [this]
    have hp := arrPlace_bare st.map st.heap (.arr t) (if isTopStd st.lastArrayTables = true then st.lastArrayTables.dropLast else st.lastArrayTables)
      (if isTopStd st.lastArrayTables = true then st.lastArrayTablesIndex.dropLast else st.lastArrayTablesIndex)
    rw [show (TableType.arr t).bare = .arr t.bare from rfl] at hp
    rw [show st.norm.map = st.map from rfl, show st.norm.heap = st.heap.map TVal.bare from rfl,
      show st.norm.lastArrayTablesIndex = st.lastArrayTablesIndex from rfl, hp, Out.bind_map', Out.map'_bind]
    congr 1
    funext x
    obtain ⟨m, ts, is⟩ := x
    simp only [bareStack, getArrayTableKey_bare, Out.map'_bind]
    congr 1
    funext x
    obtain ⟨valid, full, parent⟩ := x
    dsimp only
    split
    · simp [PState.norm, ParseError.bare, TableType.bare]
    · rfl

/-! ## Trees -/

mutual
theorem VT.size_value : ∀ (t t' : VT), t.value = t'.value → t.size = t'.size
  | .leaf s, .leaf s', _ => rfl
  | .arr es _ _, .arr es' _ _, h => by
    simp [VT.value] at h
    simp [VT.size, Elems.size_value es es' h]
  | .itab es _, .itab es' _, h => by
    simp [VT.value] at h
    simp [VT.size, Pairs.size_value es es' h]
  | .leaf s, .arr .., h => by cases s <;> simp [VT.value, Scalar.value] at h
  | .leaf s, .itab .., h => by cases s <;> simp [VT.value, Scalar.value] at h
  | .arr .., .leaf s, h => by cases s <;> simp [VT.value, Scalar.value] at h
  | .itab .., .leaf s, h => by cases s <;> simp [VT.value, Scalar.value] at h
  | .arr .., .itab .., h => by simp [VT.value] at h
  | .itab .., .arr .., h => by simp [VT.value] at h
theorem Elems.size_value : ∀ (t t' : Elems), t.values = t'.values → t.size = t'.size
  | .nil, .nil, _ => rfl
  | .cons .., .nil, h => by simp [Elems.values] at h
  | .nil, .cons .., h => by simp [Elems.values] at h
  | .cons v _ _ r, .cons v' _ _ r', h => by
    simp [Elems.values] at h
    simp [Elems.size, VT.size_value v v' h.1, Elems.size_value r r' h.2]
theorem Pairs.size_value : ∀ (t t' : Pairs), t.values = t'.values → t.size = t'.size
  | .nil, .nil, _ => rfl
  | .cons .., .nil, h => by simp [Pairs.values] at h
  | .nil, .cons .., h => by simp [Pairs.values] at h
  | .cons _ _ v _ _ r, .cons _ _ v' _ _ r', h => by
    simp [Pairs.values] at h
    simp [Pairs.size, VT.size_value v v' h.1.2, Pairs.size_value r r' h.2]
end

theorem VT.addr_value {t t' : VT} (h : t.value = t'.value) (n : Nat) : t.addr n = t'.addr n := by
  simp [VT.addr, VT.size_value t t' h]

theorem Elems.avs_value : ∀ (t t' : Elems) (n : Nat), t.values = t'.values → (t.avs n).map ArrayValue.bare = (t'.avs n).map ArrayValue.bare
  | .nil, .nil, _, _ => rfl
  | .cons .., .nil, _, h => by simp [Elems.values] at h
  | .nil, .cons .., _, h => by simp [Elems.values] at h
  | .cons v _ _ r, .cons v' _ _ r', n, h => by
    simp [Elems.values] at h
    simp [Elems.avs, ArrayValue.bare, VT.addr_value h.1, VT.size_value v v' h.1]
    simpa [ArrayValue.bare] using Elems.avs_value r r' _ h.2

theorem Pairs.tkvs_value : ∀ (t t' : Pairs) (n : Nat), t.values = t'.values → (t.tkvs n).map TableKeyVal.bare = (t'.tkvs n).map TableKeyVal.bare
  | .nil, .nil, _, _ => rfl
  | .cons .., .nil, _, h => by simp [Pairs.values] at h
  | .nil, .cons .., _, h => by simp [Pairs.values] at h
  | .cons k _ v _ _ r, .cons k' _ v' _ _ r', n, h => by
    simp [Pairs.values] at h
    simp [Pairs.tkvs, TableKeyVal.bare, VT.addr_value h.1.2, VT.size_value v v' h.1.2, h.1.1]
    simpa [TableKeyVal.bare] using Pairs.tkvs_value r r' _ h.2

/-- Two runs from states that agree but for layout, on trees that do. -/
def Same {α : Type} (n : α → α) (x y : Out α) : Prop := x.map' n = y.map' n

theorem Same.bind {α β : Type} {n : α → α} {n' : β → β} {x y : Out α} {f g : α → Out β} (h : Same n x y)
    (hf : ∀ a b, n a = n b → Same n' (f a) (g b)) : Same n' (x.bind f) (y.bind g) := by
  unfold Same at h
  cases x <;> cases y <;> simp at h
  · exact hf _ _ h
  · subst h; rfl
  · rfl

theorem Same.ok {α : Type} {n : α → α} {a b : α} (h : n a = n b) : Same n (.ok a) (.ok b) := by simp [Same, h]

/-- A function that does not look at the layout. -/
theorem Same.of_norm {F : PState → Out PState} (h : ∀ st, F st.norm = (F st).map' PState.norm) {st st' : PState} (e : st.norm = st'.norm) :
    Same PState.norm (F st) (F st') := by
  rw [Same, ← h, ← h, e]

theorem PState.norm_len {st st' : PState} (e : st.norm = st'.norm) : st.heap.length = st'.heap.length := by
  have := congrArg (fun s => s.heap.length) e
  simpa [PState.norm] using this

theorem PState.norm_cell {st st' : PState} (e : st.norm = st'.norm) {v v' : TVal} (hv : v.bare = v'.bare) : (st.cell v).norm = (st'.cell v').norm := by
  simp only [PState.norm, PState.mk.injEq] at e
  simp [PState.norm, PState.cell, hv, e]

theorem PState.norm_pushK {st st' : PState} (e : st.norm = st'.norm) (k : Str) : (st.pushK k).norm = (st'.pushK k).norm := by
  simp only [PState.norm, PState.mk.injEq] at e
  simp [PState.norm, PState.pushK, e]
theorem PState.norm_pushKs {st st' : PState} (e : st.norm = st'.norm) (k : List Str) : (st.pushKs k).norm = (st'.pushKs k).norm := by
  simp only [PState.norm, PState.mk.injEq] at e
  simp [PState.norm, PState.pushKs, e]
theorem PState.norm_openArr {st st' : PState} (e : st.norm = st'.norm) : st.openArr.norm = st'.openArr.norm := by
  simp only [PState.norm, PState.mk.injEq] at e
  simp [PState.norm, PState.openArr, e]
theorem PState.norm_closeArr {st st' : PState} (e : st.norm = st'.norm) : st.closeArr.norm = st'.closeArr.norm := by
  simp only [PState.norm, PState.mk.injEq] at e
  simp [PState.norm, PState.closeArr, e]
theorem PState.norm_lines (st : PState) (n : Nat) : (st.lines n).norm = st.norm := rfl

theorem Scalar.eff_norm (s : Scalar) {st st' : PState} (e : st.norm = st'.norm) : Same PState.norm (s.eff st) (s.eff st') := by
  unfold Scalar.eff
  split
  · split
    · exact .ok e
    · have h := getFullKey_bare st.map st.heap st.lastArrayTables st.lastArrayTablesIndex st.keychain
      have h' := getFullKey_bare st'.map st'.heap st'.lastArrayTables st'.lastArrayTablesIndex st'.keychain
      simp only [PState.norm, PState.mk.injEq] at e
      obtain ⟨e1, e2, _, e4, e5, e6, e7, e8, e9, e10⟩ := e
      rw [← h, ← h', e1, e4, e5, e6, e10]
      refine Same.bind (n := id) rfl fun a b hab => .ok ?_
      simp at hab
      subst hab
      simp [PState.norm, ParseError.bare, e1, e2, e4, e5, e6, e7, e8, e9, e10]
  · exact .ok e
  · exact .ok e
  · exact .ok e

mutual
theorem VT.eff_norm : ∀ (t t' : VT) {st st' : PState}, t.value = t'.value → st.norm = st'.norm → Same PState.norm (t.eff st) (t'.eff st')
  | .leaf s, .leaf s', st, st', h, e => by
    have hs : s = s' := by
      cases s <;> cases s' <;> simpa [VT.value, Scalar.value] using h
    subst hs
    exact (s.eff_norm e).bind fun a b e' => .ok (PState.norm_cell e' rfl)
  | .arr es c1 c2, .arr es' c1' c2', st, st', h, e => by
    simp [VT.value] at h
    refine (Elems.eff_norm es es' h (PState.norm_openArr e)).bind fun a b e' => .ok (PState.norm_cell (PState.norm_closeArr e') ?_)
    simp only [TVal.bare, PState.norm_len e, Elems.avs_value es es' _ h]
  | .itab es c1, .itab es' c1', st, st', h, e => by
    simp [VT.value] at h
    refine (Pairs.eff_norm es es' h e).bind fun a b e' => .ok (PState.norm_cell e' ?_)
    simp only [TVal.bare, PState.norm_len e, Pairs.tkvs_value es es' _ h]
  | .leaf s, .arr .., _, _, h, _ => by cases s <;> simp [VT.value, Scalar.value] at h
  | .leaf s, .itab .., _, _, h, _ => by cases s <;> simp [VT.value, Scalar.value] at h
  | .arr .., .leaf s, _, _, h, _ => by cases s <;> simp [VT.value, Scalar.value] at h
  | .itab .., .leaf s, _, _, h, _ => by cases s <;> simp [VT.value, Scalar.value] at h
  | .arr .., .itab .., _, _, h, _ => by simp [VT.value] at h
  | .itab .., .arr .., _, _, h, _ => by simp [VT.value] at h
theorem Elems.eff_norm : ∀ (t t' : Elems) {st st' : PState}, t.values = t'.values → st.norm = st'.norm → Same PState.norm (t.eff st) (t'.eff st')
  | .nil, .nil, _, _, _, e => .ok e
  | .cons .., .nil, _, _, h, _ => by simp [Elems.values] at h
  | .nil, .cons .., _, _, h, _ => by simp [Elems.values] at h
  | .cons v _ _ r, .cons v' _ _ r', st, st', h, e => by
    simp [Elems.values] at h
    refine (VT.eff_norm v v' h.1 e).bind fun a b e' => ?_
    rw [PState.norm_len e']
    exact (Same.of_norm (arrayValueAct_norm _) e').bind fun a b e' => Elems.eff_norm r r' h.2 e'
theorem Pairs.eff_norm : ∀ (t t' : Pairs) {st st' : PState}, t.values = t'.values → st.norm = st'.norm → Same PState.norm (t.eff st) (t'.eff st')
  | .nil, .nil, _, _, _, e => .ok e
  | .cons .., .nil, _, _, h, _ => by simp [Pairs.values] at h
  | .nil, .cons .., _, _, h, _ => by simp [Pairs.values] at h
  | .cons k _ v _ _ r, .cons k' _ v' _ _ r', st, st', h, e => by
    simp [Pairs.values] at h
    obtain ⟨⟨rfl, h1⟩, h2⟩ := h
    refine (VT.eff_norm v v' h1 (PState.norm_pushK e k)).bind fun a b e' => ?_
    rw [PState.norm_len e']
    exact (Same.of_norm (keyvalAct_norm k _) e').bind fun a b e' => Pairs.eff_norm r r' h2 e'
end

theorem TableType.eff_norm {t t' : TableType} (h : t.bare = t'.bare) {st st' : PState} (e : st.norm = st'.norm) :
    Same PState.norm (t.eff st) (t'.eff st') := by
  cases t with
  | std t =>
    cases t' with
    | arr t' => simp [TableType.bare] at h
    | std t' =>
      simp [TableType.bare] at h
      have hn : t.keys.map (·.key) = t'.keys.map (·.key) := by rw [← Table.bare_names t, h, Table.bare_names]
      rw [TableType.eff, TableType.eff, hn]
      have e' := PState.norm_pushKs e (t'.keys.map (·.key))
      refine Same.bind (n := fun x => (x.1.norm, x.2.bare)) ?_ fun a b hab => .ok (by simp at hab; exact hab.1)
      rw [Same, ← stdTableAct_norm, ← stdTableAct_norm, e', h]
  | arr t =>
    cases t' with
    | std t' => simp [TableType.bare] at h
    | arr t' =>
      simp [TableType.bare] at h
      have hn : t.keys.map (·.key) = t'.keys.map (·.key) := by rw [← Table.bare_names t, h, Table.bare_names]
      rw [TableType.eff, TableType.eff, hn]
      have e' := PState.norm_pushKs e (t'.keys.map (·.key))
      refine Same.bind (n := fun x => (x.1.norm, x.2.bare)) ?_ fun a b hab => .ok (by simp at hab; exact hab.1)
      rw [Same, ← arrayTableAct_norm, ← arrayTableAct_norm, e', h]

/-! ## Documents -/

/-- The state after the lines. -/
def linesSt : List (Str × ET) → PState → Out PState
  | [], st => .ok st
  | (nl, e) :: es, st => (e.eff (st.lines (nlCount nl))).bind fun st1 => linesSt es st1

theorem linesEff_st : ∀ (ls : List (Str × ET)) (st : PState), (linesEff ls st).map' (·.1) = linesSt ls st
  | [], st => rfl
  | (nl, e) :: es, st => by
    rw [linesEff, linesSt, Out.map'_bind]
    congr 1
    funext st1
    rw [← linesEff_st es st1, Out.map'_bind]
    cases linesEff es st1 <;> rfl

theorem Table.bare_of_names {t t' : Table} (h : t.keys.map (·.key) = t'.keys.map (·.key)) : t.bare = t'.bare := by
  simp only [Table.bare, Table.mk.injEq]
  have : ∀ l : List WSKeySep, l.map WSKeySep.bare = (l.map (·.key)).map fun k => ⟨⟨[], []⟩, k⟩ := by
    intro l; simp [WSKeySep.bare]
  rw [this, this, h]

theorem ET.eff_norm {e e' : ET} (h : e.item? = e'.item?) {st st' : PState} (hs : st.norm = st'.norm) : Same PState.norm (e.eff st) (e'.eff st') := by
  cases e with
  | blank w =>
    cases e' with
    | blank => exact .ok hs
    | comment => exact .ok hs
    | kv => simp [ET.item?] at h
    | table w1 t w2 c => cases t <;> simp [ET.item?] at h
  | comment w =>
    cases e' with
    | blank => exact .ok hs
    | comment => exact .ok hs
    | kv => simp [ET.item?] at h
    | table w1 t w2 c => cases t <;> simp [ET.item?] at h
  | kv w1 k s v w2 c =>
    cases e' with
    | blank => simp [ET.item?] at h
    | comment => simp [ET.item?] at h
    | table w1 t w2 c => cases t <;> simp [ET.item?] at h
    | kv w1' k' s' v' w2' c' =>
      simp [ET.item?] at h
      obtain ⟨rfl, hv⟩ := h
      refine (VT.eff_norm v v' hv (PState.norm_pushK hs k)).bind fun a b e' => ?_
      rw [PState.norm_len e']
      exact Same.of_norm (keyvalAct_norm k _) e'
  | table w1 t w2 c =>
    cases e' with
    | blank => cases t <;> simp [ET.item?] at h
    | comment => cases t <;> simp [ET.item?] at h
    | kv => cases t <;> simp [ET.item?] at h
    | table w1' t' w2' c' =>
      refine TableType.eff_norm ?_ hs
      cases t <;> cases t' <;> simp [ET.item?] at h <;> simp [TableType.bare, Table.bare_of_names h]

theorem linesSt_quiet : ∀ {ls : List (Str × ET)} {st : PState}, content ls = [] → ∃ st', linesSt ls st = .ok st' ∧ st'.norm = st.norm
  | [], st, _ => ⟨st, rfl, rfl⟩
  | (nl, e) :: es, st, h => by
    have h' : content es = [] ∧ e.item? = none := by
      cases hi : e.item? with
      | none => simpa [content, hi] using h
      | some x => simp [content, hi] at h
    obtain ⟨st', h1, h2⟩ := linesSt_quiet (st := st.lines (nlCount nl)) h'.1
    refine ⟨st', ?_, h2.trans rfl⟩
    cases e with
    | blank => exact h1
    | comment => exact h1
    | kv => simp [ET.item?] at h'
    | table w1 t w2 c => cases t <;> simp [ET.item?] at h'

/-- Lines that say the same have the same effect. -/
theorem linesSt_norm : ∀ (ls ls' : List (Str × ET)) {st st' : PState}, content ls = content ls' → st.norm = st'.norm →
    Same PState.norm (linesSt ls st) (linesSt ls' st')
  | [], ls', st, st', h, hs => by
    obtain ⟨s, h1, h2⟩ := linesSt_quiet (ls := ls') (st := st') h.symm
    rw [h1]
    exact .ok (hs.trans h2.symm)
  | (nl, e) :: ls, ls', st, st', h, hs => by
    cases hi : e.item? with
    | none =>
      have h' : content ls = content ls' := by rw [← h]; simp [content, hi]
      have : linesSt ((nl, e) :: ls) st = linesSt ls (st.lines (nlCount nl)) := by
        cases e with
        | blank => rfl
        | comment => rfl
        | kv => simp [ET.item?] at hi
        | table w1 t w2 c => cases t <;> simp [ET.item?] at hi
      rw [this]
      exact linesSt_norm ls ls' h' hs
    | some x =>
      match ls', h with
      | [], h => simp [content, hi] at h
      | (nl', e') :: ls', h =>
        cases hi' : e'.item? with
        | none =>
          have h' : content ((nl, e) :: ls) = content ls' := by rw [h]; simp [content, hi']
          have : linesSt ((nl', e') :: ls') st' = linesSt ls' (st'.lines (nlCount nl')) := by
            cases e' with
            | blank => rfl
            | comment => rfl
            | kv => simp [ET.item?] at hi'
            | table w1 t w2 c => cases t <;> simp [ET.item?] at hi'
          rw [this]
          exact linesSt_norm ((nl, e) :: ls) ls' h' hs
        | some x' =>
          simp [content, hi, hi'] at h
          rw [linesSt, linesSt]
          exact (ET.eff_norm (by rw [hi, hi', h.1]) (st := st.lines (nlCount nl)) (st' := st'.lines (nlCount nl')) hs).bind
            fun a b hab => linesSt_norm ls ls' h.2 hab
termination_by ls ls' => ls.length + ls'.length

end Tomllib
