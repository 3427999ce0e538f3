import Verif.Lemmas.Place
import Verif.Lemmas.Tree
/-!
# Two documents that differ in their scalars only

Reading them goes the same way, but for errors about arrays of mixed kinds, line numbers and the scalars themselves.
-/

namespace Tomllib

/-! ## What the heap is asked for while headers and keys are looked up -/

/-- The same cells hold table headers. -/
def SameTables (h h' : Heap) : Prop := ∀ a : Nat, h'[a]? = some .table ↔ h[a]? = some .table

section
variable {h h' : Heap} (hT : SameTables h h')
include hT

theorem keyHasValue_same (m : KMap) (k : Str) : keyHasValue m h' k = keyHasValue m h k := by
  unfold keyHasValue
  split
  · simp only [ne_eq, hT _]
  · rfl

theorem stdKeyInner_same (m : KMap) : ∀ (ks : List Str) (fk : Str) (v : Bool) (pk : Str), stdKeyInner m h' ks fk v pk = stdKeyInner m h ks fk v pk
  | [], _, _, _ => rfl
  | [_], _, _, _ => rfl
  | k :: k' :: ks, fk, v, pk => by
    simp only [stdKeyInner, keyHasValue_same hT]
    split
    · exact stdKeyInner_same m (k' :: ks) _ _ _
    · exact stdKeyInner_same m (k' :: ks) _ _ _

theorem arrayTableKeyLoop_same (m : KMap) : ∀ (ts : List TableType) (is : List Nat) (fk : Str) (pe : Nat) (v : Bool) (pk : Str),
    arrayTableKeyLoop m h' ts is fk pe v pk = arrayTableKeyLoop m h ts is fk pe v pk
  | _, [], _, _, _, _ => by simp [arrayTableKeyLoop]
  | [], _ :: _, _, _, _, _ => rfl
  | .arr t :: ts, idx :: is, fk, pe, v, pk => by
    simp only [arrayTableKeyLoop, arrayTableKeyLoop_same m ts is]
  | .std t :: ts, _ :: is, fk, pe, v, pk => by
    simp only [arrayTableKeyLoop, arrayTableKeyLoop_same m ts is, stdKeyInner_same hT, keyHasValue_same hT]

theorem getArrayTableKey_same (m : KMap) (ts : List TableType) (is : List Nat) : getArrayTableKey m h' ts is = getArrayTableKey m h ts is :=
  arrayTableKeyLoop_same hT m ts is [] 0 true root

theorem keyHasChildrenWithValues_same (m : KMap) (k : Str) : keyHasChildrenWithValues m h' k = keyHasChildrenWithValues m h k := by
  simp only [keyHasChildrenWithValues, keyHasValue_same hT]

theorem getFullKey_same (m : KMap) (ts : List TableType) (is : List Nat) (kc : List Key) : getFullKey m h' ts is kc = getFullKey m h ts is kc := by
  simp only [getFullKey, getArrayTableKey_same hT]

theorem tableDefined_same (m : KMap) (k : Str) : tableDefined m h' k = tableDefined m h k := by
  unfold tableDefined
  split
  · simp only [hT _]
  · rfl

theorem stdCheck_same (m : KMap) (t : TableType) (ts : List TableType) (is : List Nat) : stdCheck m h' t ts is = stdCheck m h t ts is := by
  simp only [stdCheck, getArrayTableKey_same hT, keyHasChildrenWithValues_same hT, tableDefined_same hT]

theorem addImplicitTables_same (m : KMap) (ts : List TableType) (is : List Nat) (t : TableType) :
    addImplicitTables m h' ts is t = addImplicitTables m h ts is t := by
  simp only [addImplicitTables, getArrayTableKey_same hT]

theorem arrPush_same (m : KMap) (t : TableType) (ts : List TableType) (is : List Nat) : arrPush m h' t ts is = arrPush m h t ts is := by
  simp only [arrPush, addImplicitTables_same hT]

theorem arrAgain_same (m : KMap) (t : TableType) (ts : List TableType) (is : List Nat) : arrAgain m h' t ts is = arrAgain m h t ts is := by
  simp only [arrAgain, arrPush_same hT]

theorem arrPlace_same (m : KMap) (t : TableType) (ts : List TableType) (is : List Nat) : arrPlace m h' t ts is = arrPlace m h t ts is := by
  simp only [arrPlace, arrPush_same hT, arrAgain_same hT]
end

/-! ## Heaps and states -/

/-- The same content, or two scalars (of the same kind, if `K`). -/
def CellTwin (K : Prop) (c c' : TVal) : Prop := c' = c ∨ ∃ s s' : Scalar, c = s.cell ∧ c' = s'.cell ∧ (K → s'.cell.arrayType = s.cell.arrayType)

structure HeapTwin (K : Prop) (h h' : Heap) : Prop where
  len : h'.length = h.length
  cell : ∀ (x : Nat) (c c' : TVal), h[x]? = some c → h'[x]? = some c' → CellTwin K c c'

theorem HeapTwin.get {K : Prop} {h h' : Heap} (hh : HeapTwin K h h') (x : Nat) :
    (h[x]? = none ∧ h'[x]? = none) ∨ ∃ c c', h[x]? = some c ∧ h'[x]? = some c' ∧ CellTwin K c c' := by
  by_cases hx : x < h.length
  · right
    have hx' : x < h'.length := by rw [hh.len]; exact hx
    exact ⟨_, _, List.getElem?_eq_getElem hx, List.getElem?_eq_getElem hx', hh.cell x _ _ (List.getElem?_eq_getElem hx) (List.getElem?_eq_getElem hx')⟩
  · left
    have := hh.len
    simp; omega

theorem HeapTwin.tables {K : Prop} {h h' : Heap} (hh : HeapTwin K h h') : SameTables h h' := by
  intro a
  rcases hh.get a with ⟨h1, h2⟩ | ⟨c, c', h1, h2, h3⟩
  · simp [h1, h2]
  · rw [h1, h2]
    rcases h3 with rfl | ⟨s, s', rfl, rfl, _⟩
    · rfl
    · cases s <;> cases s' <;> simp [Scalar.cell]

theorem HeapTwin.snoc {K : Prop} {h h' : Heap} (hh : HeapTwin K h h') {c c' : TVal} (hc : CellTwin K c c') : HeapTwin K (h ++ [c]) (h' ++ [c']) := by
  refine ⟨by simp [hh.len], fun x a a' h1 h2 => ?_⟩
  rw [List.getElem?_append] at h1 h2
  rw [hh.len] at h2
  split at h1
  · rw [if_pos ‹_›] at h2; exact hh.cell x a a' h1 h2
  · rw [if_neg ‹_›] at h2
    cases hn : x - h.length with
    | zero => simp [hn] at h1 h2; subst h1; subst h2; exact hc
    | succ n => simp [hn] at h1

/-- A state in which the one document is being read, without errors so far, and a state in which the other is. -/
structure Twin (K : Prop) (st st' : PState) : Prop where
  map : st'.map = st.map
  tables : st'.lastArrayTables = st.lastArrayTables
  index : st'.lastArrayTablesIndex = st.lastArrayTablesIndex
  chain : st'.keychain = st.keychain
  last : st'.lastTable = st.lastTable
  ae : st'.arrayError = st.arrayError
  ok : st.arrayError = false
  heap : HeapTwin K st.heap st'.heap
  err : ∀ e ∈ st'.errors, e.mixed?.isSome = true
  kind : K → st'.errors = [] ∧ st'.lastArrayType = st.lastArrayType
  top : st.lastTable = none → st.lastArrayTablesIndex = []
  len : st.lastArrayTables.length = st.lastArrayTablesIndex.length

theorem Twin.insertKeys {K : Prop} {st st' : PState} (h : Twin K st st') : insertKeys st' = insertKeys st := by
  unfold Tomllib.insertKeys
  rw [h.last, h.chain, h.map, h.tables, h.index]
  simp only [getFullKey_same h.heap.tables]

theorem arrayTableKeyLoop_prefix (m : KMap) (h : Heap) (ts' : List TableType) : ∀ (ts : List TableType) (is : List Nat) (fk : Str) (pe : Nat) (v : Bool) (pk : Str),
    is.length ≤ ts.length → arrayTableKeyLoop m h (ts ++ ts') is fk pe v pk = arrayTableKeyLoop m h ts is fk pe v pk
  | _, [], _, _, _, _, _ => by simp [arrayTableKeyLoop]
  | [], _ :: _, _, _, _, _, hl => by simp at hl
  | .arr t :: ts, idx :: is, fk, pe, v, pk, hl => by
    simp at hl
    simp only [List.cons_append, arrayTableKeyLoop, arrayTableKeyLoop_prefix m h ts' ts is _ _ _ _ hl]
  | .std t :: ts, _ :: is, fk, pe, v, pk, hl => by
    simp at hl
    simp only [List.cons_append, arrayTableKeyLoop, arrayTableKeyLoop_prefix m h ts' ts is _ _ _ _ hl]

theorem getFullKey_prefix (m : KMap) (h : Heap) (ts ts' : List TableType) (is : List Nat) (kc : List Key) (hl : is.length ≤ ts.length) :
    getFullKey m h (ts ++ ts') is kc = getFullKey m h ts is kc := by
  simp only [getFullKey, getArrayTableKey, arrayTableKeyLoop_prefix m h ts' ts is _ _ _ _ hl]

/-- Where a value can be entered, the key of the value can be computed. -/
theorem Twin.fullKey {K : Prop} {st st' : PState} (h : Twin K st st') {x : Str × Str} (hx : Tomllib.insertKeys st = .ok x) :
    ∃ y, getFullKey st'.map st'.heap st'.lastArrayTables st'.lastArrayTablesIndex st'.keychain = .ok y := by
  rw [h.chain, h.map, h.tables, h.index, getFullKey_same h.heap.tables]
  unfold Tomllib.insertKeys at hx
  split at hx
  next hn =>
    rw [h.top hn]
    simp only [getFullKey, getArrayTableKey, arrayTableKeyLoop, Out.bind_eq, Out.bind]
    exact ⟨_, rfl⟩
  · rw [getFullKey_prefix _ _ _ _ _ _ (Nat.le_of_eq h.len.symm), Out.bind_eq, Out.bind_ok] at hx
    obtain ⟨y, hy, _⟩ := hx
    exact ⟨y, hy⟩
  · rw [Out.bind_eq, Out.bind_ok] at hx
    obtain ⟨y, hy, _⟩ := hx
    exact ⟨y, hy⟩

/-- Entering a value that is no duplicate. -/
theorem insertKeyval_new {st st1 : PState} {a : Addr} (hs : insertKeyval st a = .ok st1) (he : st1.errors = []) : ∃ m, st1 = { st with map := m } := by
  simp only [insertKeyval, Out.bind_eq, Out.bind_ok] at hs
  obtain ⟨⟨full, parent⟩, hk, hs⟩ := hs
  dsimp only at hs
  split at hs
  · rw [Out.bind_ok] at hs
    obtain ⟨v, _, hs⟩ := hs
    simp at hs; subst hs; simp at he
  · split at hs
    · simp at hs
    · simp at hs; exact ⟨_, hs.symm⟩

theorem Twin.insertKeyval {K : Prop} {st st' st1 : PState} (h : Twin K st st') {a : Addr} (hs : insertKeyval st a = .ok st1) (he : st1.errors = []) :
    ∃ st1', Tomllib.insertKeyval st' a = .ok st1' ∧ Twin K st1 st1' := by
  obtain ⟨m, rfl⟩ := insertKeyval_new hs he
  refine ⟨{ st' with map := m }, ?_, ⟨rfl, h.tables, h.index, h.chain, h.last, h.ae, h.ok, h.heap, h.err, h.kind, h.top, h.len⟩⟩
  have hst : st.errors = [] := he
  simp only [Tomllib.insertKeyval, h.insertKeys, Out.bind_eq, Out.bind_ok] at hs ⊢
  obtain ⟨⟨full, parent⟩, hk, hs⟩ := hs
  refine ⟨(full, parent), hk, ?_⟩
  dsimp only at hs ⊢
  rw [h.map, h.chain]
  cases hg : st.map.get? full with
  | some hv =>
    obtain ⟨v, c⟩ := hv
    cases v with
    | some v =>
      rw [hg] at hs
      dsimp only at hs
      rw [Out.bind_ok] at hs
      obtain ⟨v, _, hs⟩ := hs
      simp [PState.mk.injEq] at hs
    | none =>
      rw [hg] at hs
      dsimp only at hs ⊢
      cases hl : st.keychain.getLast? with
      | none => rw [hl] at hs; simp at hs
      | some last =>
        rw [hl] at hs
        simp at hs ⊢
        exact hs
  | none =>
    rw [hg] at hs
    dsimp only at hs ⊢
    cases hl : st.keychain.getLast? with
    | none => rw [hl] at hs; simp at hs
    | some last =>
      rw [hl] at hs
      dsimp only at hs ⊢
      rcases h.heap.get a with ⟨h1, h2⟩ | ⟨c, c', h1, h2, h3⟩
      · rw [h1] at hs; rw [h2]
        simp at hs ⊢
        exact hs
      · rw [h1] at hs; rw [h2]
        rcases h3 with rfl | ⟨s, s', rfl, rfl, _⟩
        · cases c' <;> simp at hs ⊢ <;> exact hs
        · cases s <;> cases s' <;> simp [Scalar.cell] at hs ⊢ <;> exact hs

theorem ite_split {α : Type} {P : Prop} [Decidable P] {a b x : α} (h : (if P then a else b) = x) : (P ∧ a = x) ∨ (¬ P ∧ b = x) := by
  split at h
  · exact .inl ⟨‹_›, h⟩
  · exact .inr ⟨‹_›, h⟩

theorem checkMixed_none {t : ArrayType} {st st1 : PState} (hs : checkMixed t st = .ok st1) (he : st1.errors = []) :
    st1 = st ∧ ∀ l, st.lastArrayType.getLast? = some l → l = .none ∨ l = t := by
  unfold checkMixed at hs
  split at hs
  next e => simp at hs; exact ⟨hs.symm, by simp [e]⟩
  next l e =>
    split at hs
    next hl => simp at hs; exact ⟨hs.symm, by rw [e]; intro l' h'; simp at h'; subst h'; exact hl⟩
    · split at hs
      · simp at hs
      · simp at hs
      · dsimp only at hs
        rcases ite_split hs with ⟨_, hs⟩ | ⟨hm, hs⟩
        · simp only [Out.ok.injEq] at hs; subst hs; simp at he
        · simp only [Out.ok.injEq] at hs; subst hs
          rw [he] at hm
          exact absurd rfl hm

theorem Twin.checkMixed {K : Prop} {st st' : PState} (h : Twin K st st') {t t' : ArrayType} (ht : K → t' = t)
    (h0 : ∀ l, st.lastArrayType.getLast? = some l → l = .none ∨ l = t) {x : Str × Str} (hx : Tomllib.insertKeys st = .ok x) :
    ∃ e', Tomllib.checkMixed t' st' = .ok { st' with errors := e' } ∧ (∀ e ∈ e', e.mixed?.isSome = true) ∧ (K → e' = []) := by
  unfold Tomllib.checkMixed
  split
  next e => exact ⟨st'.errors, rfl, h.err, fun hK => (h.kind hK).1⟩
  next l e =>
    split
    · exact ⟨st'.errors, rfl, h.err, fun hK => (h.kind hK).1⟩
    next hl =>
      have hnK : ¬ K := by
        intro hK
        rw [(h.kind hK).2] at e
        rw [ht hK] at hl
        exact hl (h0 l e)
      obtain ⟨y, hy⟩ := h.fullKey hx
      rw [hy]
      obtain ⟨a, b, c⟩ := y
      dsimp only
      have hor : ∀ m : Bool, ∃ e', (if m = true then Out.ok { st' with errors := st'.errors ++ [.mixedArray c st'.lineCount 0] } else Out.ok st') =
          Out.ok { st' with errors := e' } ∧ (∀ e ∈ e', e.mixed?.isSome = true) ∧ (K → e' = []) := by
        intro m
        cases m with
        | true =>
          refine ⟨_, rfl, ?_, fun hK => absurd hK hnK⟩
          intro e he
          rcases List.mem_append.mp he with he | he
          · exact h.err e he
          · simp at he; subst he; rfl
        | false => exact ⟨st'.errors, rfl, h.err, fun hK => absurd hK hnK⟩
      exact hor _

theorem Twin.arrayValueAct {K : Prop} {st st' st1 : PState} (h : Twin K st st') {a : Addr} (hs : arrayValueAct a st = .ok st1) (he : st1.errors = []) :
    ∃ st1', Tomllib.arrayValueAct a st' = .ok st1' ∧ Twin K st1 st1' := by
  simp only [Tomllib.arrayValueAct, Out.bind_eq] at hs ⊢
  rcases h.heap.get a with ⟨h1, h2⟩ | ⟨c, c', h1, h2, h3⟩
  · rw [h1] at hs; simp [Out.bind] at hs
  rw [h1] at hs
  rw [h2]
  simp only [Out.bind] at hs ⊢
  cases ht : c.arrayType with
  | panic => rw [ht] at hs; simp at hs
  | fuel => rw [ht] at hs; simp at hs
  | ok t =>
    rw [ht] at hs
    dsimp only at hs
    have : ∃ t', c'.arrayType = .ok t' ∧ (K → t' = t) := by
      rcases h3 with rfl | ⟨s, s', rfl, rfl, hk⟩
      · exact ⟨t, ht, fun _ => rfl⟩
      · obtain ⟨t', ht'⟩ : ∃ t', s'.cell.arrayType = .ok t' := by cases s' <;> exact ⟨_, rfl⟩
        refine ⟨t', ht', fun hK => ?_⟩
        have := hk hK
        rw [ht, ht'] at this
        simpa using this
    obtain ⟨t', ht', hkt⟩ := this
    rw [ht']
    dsimp only
    cases hc : Tomllib.checkMixed t st with
    | panic => rw [hc] at hs; simp at hs
    | fuel => rw [hc] at hs; simp at hs
    | ok sa =>
      rw [hc] at hs
      dsimp only at hs
      cases hi : Tomllib.insertKeyval { sa with lastArrayType := sa.lastArrayType.dropLast ++ [t] } a with
      | panic => rw [hi] at hs; simp at hs
      | fuel => rw [hi] at hs; simp at hs
      | ok sb =>
        rw [hi] at hs
        dsimp only at hs
        cases hl : sb.keychain.getLast? with
        | none => rw [hl] at hs; simp at hs
        | some k =>
          rw [hl] at hs
          simp only [Out.ok.injEq] at hs
          have eb : sb.errors = [] := by rw [← hs] at he; exact he
          have ea : sa.errors = [] := by
            obtain ⟨⟨l, hl1, _⟩, _⟩ := insertKeyval_adds hi
            rw [eb] at hl1
            simp at hl1
            exact hl1.1
          have hx : ∃ x, Tomllib.insertKeys sa = .ok x := by
            simp only [Tomllib.insertKeyval, Out.bind_eq, Out.bind_ok] at hi
            obtain ⟨x, hx, _⟩ := hi
            exact ⟨x, hx⟩
          obtain ⟨hsa, h0⟩ := checkMixed_none hc ea
          obtain ⟨x, hx⟩ := hx
          obtain ⟨e', he1, he2, he3⟩ := h.checkMixed hkt h0 (x := x) (by rw [← hsa]; exact hx)
          rw [he1]
          dsimp only
          subst hsa
          have h' : Twin K { sa with lastArrayType := sa.lastArrayType.dropLast ++ [t] }
              { st' with errors := e', lastArrayType := st'.lastArrayType.dropLast ++ [t'] } :=
            ⟨h.map, h.tables, h.index, h.chain, h.last, h.ae, h.ok, h.heap, he2, fun hK => ⟨he3 hK, by
              show st'.lastArrayType.dropLast ++ [t'] = _
              rw [(h.kind hK).2, hkt hK]⟩, h.top, h.len⟩
          obtain ⟨sb', hb1, hb2⟩ := h'.insertKeyval hi eb
          refine ⟨{ sb' with keychain := sb'.keychain.dropLast ++ [k.inc] }, ?_, ?_⟩
          · rw [hb1]
            dsimp only
            rw [hb2.chain, hl]
          · subst hs
            refine ⟨hb2.map, hb2.tables, hb2.index, ?_, hb2.last, hb2.ae, hb2.ok, hb2.heap, hb2.err, hb2.kind, hb2.top, hb2.len⟩
            show sb'.keychain.dropLast ++ _ = _
            rw [hb2.chain]

theorem Twin.keyvalAct {K : Prop} {st st' st1 : PState} (h : Twin K st st') {k : Str} {a : Addr} (hs : keyvalAct k a st = .ok st1) (he : st1.errors = []) :
    ∃ st1', Tomllib.keyvalAct k a st' = .ok st1' ∧ Twin K st1 st1' := by
  simp only [Tomllib.keyvalAct, Out.bind_eq, Out.bind_ok, h.ae, h.ok] at hs ⊢
  simp only [Bool.false_eq_true, if_false] at hs ⊢
  obtain ⟨sa, ha, hs⟩ := hs
  simp at hs
  have ea : sa.errors = [] := by rw [← hs] at he; exact he
  obtain ⟨sa', h1, h2⟩ := h.insertKeyval ha ea
  refine ⟨{ sa' with keychain := sa'.keychain.dropLast }, ⟨sa', h1, rfl⟩, ?_⟩
  subst hs
  refine ⟨h2.map, h2.tables, h2.index, ?_, h2.last, h2.ae, h2.ok, h2.heap, h2.err, h2.kind, h2.top, h2.len⟩
  show sa'.keychain.dropLast = _
  rw [h2.chain]

/-! ## Headers -/

theorem Twin.stdTableAct {K : Prop} {st st' st1 : PState} (h : Twin K st st') {t : Table} {x : TableType} (hs : stdTableAct t st = .ok (st1, x)) (he : st1.errors = []) :
    ∃ st1', Tomllib.stdTableAct t st' = .ok (st1', x) ∧ Twin K st1 st1' := by
  simp only [Tomllib.stdTableAct, Out.bind_eq, h.chain, h.tables, h.index, h.map, stdCheck_same h.heap.tables, addImplicitTables_same h.heap.tables,
    h.heap.len] at hs ⊢
  split at hs
  · simp at hs
  next hlen =>
    rw [if_neg hlen]
    rw [Out.bind_ok] at hs
    obtain ⟨⟨er, tk, pk⟩, hc, hs⟩ := hs
    rw [hc]
    simp only [Out.bind] at hs ⊢
    split at hs
    · split at hs
      · simp at hs; obtain ⟨rfl, _⟩ := hs; simp at he
      · simp at hs
      · simp at hs
    next her =>
      rw [if_neg her]
      cases h1 : addImplicitTables st.map st.heap (stdPop (.std t) st.lastArrayTables st.lastArrayTablesIndex).1
          (stdPop (.std t) st.lastArrayTables st.lastArrayTablesIndex).2 (.std t) with
      | panic => rw [h1] at hs; simp at hs
      | fuel => rw [h1] at hs; simp at hs
      | ok m1 =>
        rw [h1] at hs
        dsimp only at hs ⊢
        cases h2 : addToTableSet m1 (stdPop (.std t) st.lastArrayTables st.lastArrayTablesIndex).1
          (stdPop (.std t) st.lastArrayTables st.lastArrayTablesIndex).2 ((t.keys.map (·.key)).getLastD []) with
        | panic => rw [h2] at hs; simp at hs
        | fuel => rw [h2] at hs; simp at hs
        | ok m2 =>
          rw [h2] at hs
          dsimp only at hs ⊢
          cases h3 : stdParent (stdEntry m2 st.heap.length tk) pk ((t.keys.map (·.key)).getLastD []) with
          | panic => rw [h3] at hs; simp at hs
          | fuel => rw [h3] at hs; simp at hs
          | ok m3 =>
            rw [h3] at hs
            simp at hs
            obtain ⟨rfl, rfl⟩ := hs
            refine ⟨_, rfl, ⟨rfl, rfl, rfl, rfl, rfl, rfl, rfl, h.heap.snoc (.inl rfl), h.err, h.kind, fun hn => by simp at hn, ?_⟩⟩
            have := stdPop_length (.std t) h.len
            simp; exact this

theorem Twin.arrayTableAct {K : Prop} {st st' st1 : PState} (h : Twin K st st') {n : Nat} (hm : MapInv st.map n) {t : Table} {x : TableType}
    (hs : arrayTableAct t st = .ok (st1, x)) (he : st1.errors = []) :
    ∃ st1', Tomllib.arrayTableAct t st' = .ok (st1', x) ∧ Twin K st1 st1' := by
  simp only [Tomllib.arrayTableAct, Out.bind_eq, h.chain, h.tables, h.index, h.map, arrPlace_same h.heap.tables, getArrayTableKey_same h.heap.tables] at hs ⊢
  split at hs
  · simp at hs
  next hlen =>
    rw [if_neg hlen]
    rw [Out.bind_ok] at hs
    obtain ⟨⟨m, ts, is⟩, hc, hs⟩ := hs
    rw [hc]
    have hl := arrPlace_all hm st.heap (.arr t) (ts := if isTopStd st.lastArrayTables = true then st.lastArrayTables.dropLast else st.lastArrayTables)
      (is := if isTopStd st.lastArrayTables = true then st.lastArrayTablesIndex.dropLast else st.lastArrayTablesIndex) (by split <;> simp [h.len])
    rw [hc] at hl
    simp only [Out.bind] at hs ⊢
    cases h1 : getArrayTableKey m st.heap ts is with
    | panic => rw [h1] at hs; simp at hs
    | fuel => rw [h1] at hs; simp at hs
    | ok y =>
      rw [h1] at hs
      obtain ⟨valid, full, parent⟩ := y
      dsimp only at hs ⊢
      rcases ite_split hs with ⟨_, hs⟩ | ⟨hv, hs⟩
      · simp at hs; obtain ⟨rfl, _⟩ := hs; simp at he
      · rw [if_neg hv]
        simp only [Out.ok.injEq, Prod.mk.injEq] at hs
        obtain ⟨rfl, rfl⟩ := hs
        exact ⟨_, rfl, ⟨rfl, rfl, rfl, rfl, rfl, rfl, rfl, h.heap, h.err, h.kind, fun hn => by simp at hn, hl.2⟩⟩

/-! ## Values -/

mutual
/-- The same but for the scalars, which are properly written (and of the same kinds, if `K`). -/
def VT.Skel (K : Prop) : VT → VT → Prop
  | .leaf s, .leaf s' => (s' = s ∨ ∀ d, s' = .dt d → d.validate = true) ∧ (K → s'.cell.arrayType = s.cell.arrayType)
  | .arr es c1 c2, .arr es' c1' c2' => es.Skel K es' ∧ c1' = c1 ∧ c2' = c2
  | .itab kvs ws, .itab kvs' ws' => kvs.Skel K kvs' ∧ ws' = ws
  | _, _ => False
def Elems.Skel (K : Prop) : Elems → Elems → Prop
  | .nil, .nil => True
  | .cons v sep cn r, .cons v' sep' cn' r' => v.Skel K v' ∧ sep' = sep ∧ cn' = cn ∧ r.Skel K r'
  | _, _ => False
def Pairs.Skel (K : Prop) : Pairs → Pairs → Prop
  | .nil, .nil => True
  | .cons k ws v sep cn r, .cons k' ws' v' sep' cn' r' => k' = k ∧ ws' = ws ∧ v.Skel K v' ∧ sep' = sep ∧ cn' = cn ∧ r.Skel K r'
  | _, _ => False
end

mutual
theorem VT.Skel.size {K : Prop} : ∀ {t t' : VT}, t.Skel K t' → t'.size = t.size
  | .leaf s, .leaf s', _ => rfl
  | .arr es _ _, .arr es' _ _, h => by simp [VT.size, Elems.Skel.size h.1]
  | .itab es _, .itab es' _, h => by simp [VT.size, Pairs.Skel.size h.1]
  | .leaf _, .arr .., h => h.elim
  | .leaf _, .itab .., h => h.elim
  | .arr .., .leaf _, h => h.elim
  | .arr .., .itab .., h => h.elim
  | .itab .., .leaf _, h => h.elim
  | .itab .., .arr .., h => h.elim
theorem Elems.Skel.size {K : Prop} : ∀ {t t' : Elems}, t.Skel K t' → t'.size = t.size
  | .nil, .nil, _ => rfl
  | .cons .., .cons .., h => by simp [Elems.size, VT.Skel.size h.1, Elems.Skel.size h.2.2.2]
  | .nil, .cons .., h => h.elim
  | .cons .., .nil, h => h.elim
theorem Pairs.Skel.size {K : Prop} : ∀ {t t' : Pairs}, t.Skel K t' → t'.size = t.size
  | .nil, .nil, _ => rfl
  | .cons .., .cons .., h => by simp [Pairs.size, VT.Skel.size h.2.2.1, Pairs.Skel.size h.2.2.2.2.2]
  | .nil, .cons .., h => h.elim
  | .cons .., .nil, h => h.elim
end

theorem VT.Skel.addr {K : Prop} {t t' : VT} (h : t.Skel K t') (n : Nat) : t'.addr n = t.addr n := by
  simp [VT.addr, h.size]

theorem Elems.Skel.avs {K : Prop} : ∀ {t t' : Elems}, t.Skel K t' → ∀ n, t'.avs n = t.avs n
  | .nil, .nil, _, _ => rfl
  | .cons .., .cons .., h, n => by
    obtain ⟨h1, rfl, rfl, h4⟩ := h
    simp [Elems.avs, h1.addr, h1.size, Elems.Skel.avs h4]
  | .nil, .cons .., h, _ => h.elim
  | .cons .., .nil, h, _ => h.elim

theorem Pairs.Skel.tkvs {K : Prop} : ∀ {t t' : Pairs}, t.Skel K t' → ∀ n, t'.tkvs n = t.tkvs n
  | .nil, .nil, _, _ => rfl
  | .cons .., .cons .., h, n => by
    obtain ⟨rfl, rfl, h1, rfl, rfl, h4⟩ := h
    simp [Pairs.tkvs, h1.addr, h1.size, Pairs.Skel.tkvs h4]
  | .nil, .cons .., h, _ => h.elim
  | .cons .., .nil, h, _ => h.elim

theorem Adds.clean {P : ParseError → Prop} {st st' : PState} (h : Adds P st st') (he : st'.errors = []) : st.errors = [] := by
  obtain ⟨⟨l, h1, _⟩, _⟩ := h
  rw [he] at h1
  simp at h1
  exact h1.1

theorem Twin.cell {K : Prop} {st st' : PState} (h : Twin K st st') {c c' : TVal} (hc : CellTwin K c c') : Twin K (st.cell c) (st'.cell c') :=
  ⟨h.map, h.tables, h.index, h.chain, h.last, h.ae, h.ok, h.heap.snoc hc, h.err, h.kind, h.top, h.len⟩

theorem Twin.lines {K : Prop} {st st' : PState} (h : Twin K st st') (n n' : Nat) : Twin K (st.lines n) (st'.lines n') :=
  ⟨h.map, h.tables, h.index, h.chain, h.last, h.ae, h.ok, h.heap, h.err, h.kind, h.top, h.len⟩

theorem Twin.lines_right {K : Prop} {st st' : PState} (h : Twin K st st') (n' : Nat) : Twin K st (st'.lines n') :=
  ⟨h.map, h.tables, h.index, h.chain, h.last, h.ae, h.ok, h.heap, h.err, h.kind, h.top, h.len⟩

theorem Twin.pushK {K : Prop} {st st' : PState} (h : Twin K st st') (k : Str) : Twin K (st.pushK k) (st'.pushK k) :=
  ⟨h.map, h.tables, h.index, by simp [PState.pushK, h.chain], h.last, h.ae, h.ok, h.heap, h.err, h.kind, h.top, h.len⟩

theorem Twin.pushKs {K : Prop} {st st' : PState} (h : Twin K st st') (ks : List Str) : Twin K (st.pushKs ks) (st'.pushKs ks) :=
  ⟨h.map, h.tables, h.index, by simp [PState.pushKs, h.chain], h.last, h.ae, h.ok, h.heap, h.err, h.kind, h.top, h.len⟩

theorem Twin.openArr {K : Prop} {st st' : PState} (h : Twin K st st') : Twin K st.openArr st'.openArr :=
  ⟨h.map, h.tables, h.index, by simp [PState.openArr, h.chain], h.last, h.ae, h.ok, h.heap, h.err,
    fun hK => ⟨(h.kind hK).1, by simp [PState.openArr, (h.kind hK).2]⟩, h.top, h.len⟩

theorem Twin.closeArr {K : Prop} {st st' : PState} (h : Twin K st st') : Twin K st.closeArr st'.closeArr :=
  ⟨h.map, h.tables, h.index, by simp [PState.closeArr, h.chain], h.last, h.ae, h.ok, h.heap, h.err,
    fun hK => ⟨(h.kind hK).1, by simp [PState.closeArr, (h.kind hK).2]⟩, h.top, h.len⟩

theorem Twin.scalar {K : Prop} {st st' st1 : PState} (h : Twin K st st') {s s' : Scalar} (hd : s' = s ∨ ∀ d, s' = .dt d → d.validate = true)
    (hs : s.eff st = .ok st1) (he : st1.errors = []) : ∃ st1', s'.eff st' = .ok st1' ∧ Twin K st1 st1' := by
  have h1 : (∃ n, st1 = st.lines n) ∧ ∀ d, s = .dt d → d.validate = true := by
    cases s with
    | dt d =>
      simp only [Scalar.eff] at hs
      rcases ite_split hs with ⟨hv, hs⟩ | ⟨_, hs⟩
      · simp at hs; exact ⟨⟨0, hs.symm⟩, by simpa using hv⟩
      · rw [Out.bind_ok] at hs
        obtain ⟨x, _, hs⟩ := hs
        simp at hs; subst hs; simp at he
    | str a b => cases b <;> simp only [Scalar.eff, Out.ok.injEq] at hs <;> first | exact ⟨⟨_, hs.symm⟩, by simp⟩ | exact ⟨⟨0, hs.symm⟩, by simp⟩
    | int => simp only [Scalar.eff, Out.ok.injEq] at hs; exact ⟨⟨0, hs.symm⟩, by simp⟩
    | float => simp only [Scalar.eff, Out.ok.injEq] at hs; exact ⟨⟨0, hs.symm⟩, by simp⟩
    | bool => simp only [Scalar.eff, Out.ok.injEq] at hs; exact ⟨⟨0, hs.symm⟩, by simp⟩
  have hd : ∀ d, s' = .dt d → d.validate = true := by
    rcases hd with rfl | hd
    · exact h1.2
    · exact hd
  have h2 : ∃ n, s'.eff st' = .ok (st'.lines n) := by
    cases s' with
    | dt d => exact ⟨0, by simp [Scalar.eff, hd d rfl, PState.lines]⟩
    | str a b => cases b <;> simp only [Scalar.eff, Out.ok.injEq] <;> first | exact ⟨_, rfl⟩ | exact ⟨0, rfl⟩
    | int => exact ⟨0, rfl⟩
    | float => exact ⟨0, rfl⟩
    | bool => exact ⟨0, rfl⟩
  obtain ⟨⟨n, rfl⟩, _⟩ := h1
  obtain ⟨n', h2⟩ := h2
  exact ⟨_, h2, h.lines n n'⟩

mutual
theorem VT.Skel.eff {K : Prop} : ∀ {t t' : VT}, t.Skel K t' → ∀ {st st' st1 : PState}, Twin K st st' → t.eff st = .ok st1 → st1.errors = [] →
    ∃ st1', t'.eff st' = .ok st1' ∧ Twin K st1 st1'
  | .leaf s, .leaf s', h, st, st', st1, hT, hs, he => by
    simp only [VT.eff, Out.bind_ok] at hs ⊢
    obtain ⟨sa, h1, hs⟩ := hs
    simp at hs; subst hs
    obtain ⟨sa', g1, g2⟩ := hT.scalar h.1 h1 he
    exact ⟨_, ⟨sa', g1, rfl⟩, g2.cell (.inr ⟨s, s', rfl, rfl, h.2⟩)⟩
  | .arr es c1 c2, .arr es' c1' c2', h, st, st', st1, hT, hs, he => by
    obtain ⟨h1, rfl, rfl⟩ := h
    simp only [VT.eff, Out.bind_ok] at hs ⊢
    obtain ⟨sa, h2, hs⟩ := hs
    simp at hs; subst hs
    obtain ⟨sa', g1, g2⟩ := Elems.Skel.eff h1 hT.openArr h2 he
    refine ⟨_, ⟨sa', g1, rfl⟩, g2.closeArr.cell (.inl ?_)⟩
    rw [hT.heap.len, h1.avs]
  | .itab es ws, .itab es' ws', h, st, st', st1, hT, hs, he => by
    obtain ⟨h1, rfl⟩ := h
    simp only [VT.eff, Out.bind_ok] at hs ⊢
    obtain ⟨sa, h2, hs⟩ := hs
    simp at hs; subst hs
    obtain ⟨sa', g1, g2⟩ := Pairs.Skel.eff h1 hT h2 he
    refine ⟨_, ⟨sa', g1, rfl⟩, g2.cell (.inl ?_)⟩
    rw [hT.heap.len, h1.tkvs]
  | .leaf _, .arr .., h, _, _, _, _, _, _ => h.elim
  | .leaf _, .itab .., h, _, _, _, _, _, _ => h.elim
  | .arr .., .leaf _, h, _, _, _, _, _, _ => h.elim
  | .arr .., .itab .., h, _, _, _, _, _, _ => h.elim
  | .itab .., .leaf _, h, _, _, _, _, _, _ => h.elim
  | .itab .., .arr .., h, _, _, _, _, _, _ => h.elim
theorem Elems.Skel.eff {K : Prop} : ∀ {t t' : Elems}, t.Skel K t' → ∀ {st st' st1 : PState}, Twin K st st' → t.eff st = .ok st1 → st1.errors = [] →
    ∃ st1', t'.eff st' = .ok st1' ∧ Twin K st1 st1'
  | .nil, .nil, _, st, st', st1, hT, hs, he => by
    simp [Elems.eff] at hs ⊢; subst hs; exact hT
  | .cons v _ _ r, .cons v' _ _ r', h, st, st', st1, hT, hs, he => by
    obtain ⟨h1, _, _, h4⟩ := h
    simp only [Elems.eff, Out.bind_ok] at hs ⊢
    obtain ⟨sa, h2, sb, h3, hs⟩ := hs
    have eb := (Elems.eff_adds hs).clean he
    have ea := (arrayValueAct_adds h3).clean eb
    obtain ⟨sa', g1, g2⟩ := VT.Skel.eff h1 hT h2 ea
    obtain ⟨sb', k1, k2⟩ := g2.arrayValueAct h3 eb
    obtain ⟨sc', l1, l2⟩ := Elems.Skel.eff h4 k2 hs he
    exact ⟨sc', ⟨sa', g1, sb', by rw [g2.heap.len]; exact k1, l1⟩, l2⟩
  | .nil, .cons .., h, _, _, _, _, _, _ => h.elim
  | .cons .., .nil, h, _, _, _, _, _, _ => h.elim
theorem Pairs.Skel.eff {K : Prop} : ∀ {t t' : Pairs}, t.Skel K t' → ∀ {st st' st1 : PState}, Twin K st st' → t.eff st = .ok st1 → st1.errors = [] →
    ∃ st1', t'.eff st' = .ok st1' ∧ Twin K st1 st1'
  | .nil, .nil, _, st, st', st1, hT, hs, he => by
    simp [Pairs.eff] at hs ⊢; subst hs; exact hT
  | .cons k _ v _ _ r, .cons k' _ v' _ _ r', h, st, st', st1, hT, hs, he => by
    obtain ⟨rfl, _, h1, _, _, h4⟩ := h
    simp only [Pairs.eff, Out.bind_ok] at hs ⊢
    obtain ⟨sa, h2, sb, h3, hs⟩ := hs
    have eb := (Pairs.eff_adds hs).clean he
    have ea := (keyvalAct_adds h3).clean eb
    obtain ⟨sa', g1, g2⟩ := VT.Skel.eff h1 (hT.pushK k') h2 ea
    obtain ⟨sb', k1, k2⟩ := g2.keyvalAct h3 eb
    obtain ⟨sc', l1, l2⟩ := Pairs.Skel.eff h4 k2 hs he
    exact ⟨sc', ⟨sa', g1, sb', by rw [g2.heap.len]; exact k1, l1⟩, l2⟩
  | .nil, .cons .., h, _, _, _, _, _, _ => h.elim
  | .cons .., .nil, h, _, _, _, _, _, _ => h.elim
end

/-! ## Lines -/

/-- The same but for the scalars. -/
def ET.Skel (K : Prop) : ET → ET → Prop
  | .kv w1 k s v w2 c, .kv w1' k' s' v' w2' c' => w1' = w1 ∧ k' = k ∧ s' = s ∧ v.Skel K v' ∧ w2' = w2 ∧ c' = c
  | .kv .., _ => False
  | _, .kv .. => False
  | e, e' => e' = e

def LinesSkel (K : Prop) : List (Str × ET) → List (Str × ET) → Prop
  | [], [] => True
  | (nl, e) :: ls, (nl', e') :: ls' => nl' = nl ∧ e.Skel K e' ∧ LinesSkel K ls ls'
  | _, _ => False

theorem ET.Skel.expr {K : Prop} {e e' : ET} (h : e.Skel K e') (n : Nat) : e'.expr n = e.expr n := by
  cases e <;> cases e' <;> simp only [ET.Skel] at h <;> first | trivial | (obtain ⟨rfl, rfl, rfl, h, rfl, rfl⟩ := h; simp [ET.expr, h.addr]) | (rw [h])

theorem ET.Skel.eff {K : Prop} {e e' : ET} (h : e.Skel K e') {st st' st1 : PState} (hT : Twin K st st') (hi : Inv st) (hs : e.eff st = .ok st1)
    (he : st1.errors = []) : ∃ st1', e'.eff st' = .ok st1' ∧ Twin K st1 st1' := by
  have hkv : (∃ w1 k s v w2 c, e = .kv w1 k s v w2 c) ∨ e' = e := by
    cases e <;> cases e' <;> simp only [ET.Skel] at h <;> first | exact .inr h | (left; exact ⟨_, _, _, _, _, _, rfl⟩) | trivial
  rcases hkv with ⟨w1, k, s, v, w2, c, rfl⟩ | rfl
  · cases e' <;> simp only [ET.Skel] at h
    obtain ⟨rfl, rfl, rfl, h, rfl, rfl⟩ := h
    simp only [ET.eff, Out.bind_ok] at hs ⊢
    obtain ⟨sa, h2, hs⟩ := hs
    have ea := (keyvalAct_adds hs).clean he
    obtain ⟨sa', g1, g2⟩ := h.eff (hT.pushK _) h2 ea
    obtain ⟨sb', k1, k2⟩ := g2.keyvalAct hs he
    exact ⟨sb', ⟨sa', g1, by rw [g2.heap.len]; exact k1⟩, k2⟩
  · cases e' with
    | blank => simp [ET.eff] at hs ⊢; subst hs; exact hT
    | comment => simp [ET.eff] at hs ⊢; subst hs; exact hT
    | kv => 
      simp only [ET.Skel] at h
      simp only [ET.eff, Out.bind_ok] at hs ⊢
      obtain ⟨sa, h2, hs⟩ := hs
      have ea := (keyvalAct_adds hs).clean he
      obtain ⟨sa', g1, g2⟩ := h.2.2.2.1.eff (hT.pushK _) h2 ea
      obtain ⟨sb', k1, k2⟩ := g2.keyvalAct hs he
      exact ⟨sb', ⟨sa', g1, by rw [g2.heap.len]; exact k1⟩, k2⟩
    | table w1 t w2 c =>
      cases t with
      | std t =>
        simp only [ET.eff, TableType.eff, Out.bind_ok] at hs ⊢
        obtain ⟨⟨sa, x⟩, h2, hs⟩ := hs
        simp at hs; subst hs
        obtain ⟨sa', g1, g2⟩ := (hT.pushKs _).stdTableAct h2 he
        exact ⟨sa', ⟨_, g1, rfl⟩, g2⟩
      | arr t =>
        simp only [ET.eff, TableType.eff, Out.bind_ok] at hs ⊢
        obtain ⟨⟨sa, x⟩, h2, hs⟩ := hs
        simp at hs; subst hs
        obtain ⟨sa', g1, g2⟩ := (hT.pushKs _).arrayTableAct (n := st.heap.length) hi.map h2 he
        exact ⟨sa', ⟨_, g1, rfl⟩, g2⟩

theorem linesEff_clean : ∀ {ls : List (Str × ET)} {st st1 : PState} {ns : List NLExpression}, linesEff ls st = .ok (st1, ns) → st1.errors = [] → st.errors = []
  | [], st, st1, ns, hs, he => by simp [linesEff] at hs; rw [hs.1]; exact he
  | (nl, e) :: ls, st, st1, ns, hs, he => by
    simp only [linesEff, Out.bind_ok] at hs
    obtain ⟨sa, h3, ⟨sb, nb⟩, h4, hs⟩ := hs
    simp at hs
    obtain ⟨rfl, rfl⟩ := hs
    exact (ET.eff_adds h3).clean (linesEff_clean h4 he)

theorem LinesSkel.eff {K : Prop} : ∀ {ls ls' : List (Str × ET)}, LinesSkel K ls ls' → ∀ {st st' st1 : PState} {ns : List NLExpression}, Twin K st st' → Inv st →
    linesEff ls st = .ok (st1, ns) → st1.errors = [] → ∃ st1', linesEff ls' st' = .ok (st1', ns) ∧ Twin K st1 st1'
  | [], [], _, st, st', st1, ns, hT, hi, hs, he => by
    simp [linesEff] at hs ⊢
    obtain ⟨rfl, rfl⟩ := hs
    exact ⟨st', ⟨rfl, rfl⟩, hT⟩
  | (nl, e) :: ls, (nl', e') :: ls', h, st, st', st1, ns, hT, hi, hs, he => by
    obtain ⟨rfl, h1, h2⟩ := h
    simp only [linesEff, Out.bind_ok] at hs ⊢
    obtain ⟨sa, h3, ⟨sb, nb⟩, h4, hs⟩ := hs
    simp at hs
    obtain ⟨rfl, rfl⟩ := hs
    have ea : sa.errors = [] := linesEff_clean h4 he
    obtain ⟨sa', g1, g2⟩ := h1.eff (hT.lines _ _) (hi.linesN _) h3 ea
    have hia : Inv sa := by
      have := e.eff_all (hi.linesN (nlCount nl'))
      rw [h3] at this; exact this
    obtain ⟨sb', k1, k2⟩ := LinesSkel.eff h2 g2 hia h4 he
    refine ⟨sb', ⟨sa', g1, (sb', nb), k1, ?_⟩, k2⟩
    simp only
    rw [h1.expr, hT.heap.len]
  | [], _ :: _, h, _, _, _, _, _, _, _, _ => h.elim
  | _ :: _, [], h, _, _, _, _, _, _, _, _ => h.elim

theorem Twin.new (K : Prop) : Twin K PState.new PState.new :=
  ⟨rfl, rfl, rfl, rfl, rfl, rfl, rfl, ⟨rfl, fun x c c' h => by simp [PState.new] at h⟩, by simp [PState.new], fun _ => ⟨rfl, rfl⟩, fun _ => rfl, rfl⟩

end Tomllib
