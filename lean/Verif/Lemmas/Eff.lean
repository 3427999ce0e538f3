import Verif.Spec.Lines
import Verif.Grammar
import Verif.Spec.Syntax
import Verif.Lemmas.Layout
/-!
# What reading a value or a line does to the parser state

The effect of a syntax tree on the state, replaying the model's actions in the order of the grammar; and of a tree that was only read in part.
-/

namespace Tomllib

/-- Allocate a cell. -/
def PState.cell (st : PState) (v : TVal) : PState := { st with heap := st.heap ++ [v] }
/-- Push a key. -/
def PState.pushK (st : PState) (k : Str) : PState := { st with keychain := st.keychain ++ [.str k] }
/-- Count lines. -/
def PState.lines (st : PState) (n : Nat) : PState := { st with lineCount := st.lineCount + n }
/-- On entering an array. -/
def PState.openArr (st : PState) : PState :=
  { st with lastArrayType := st.lastArrayType ++ [.none], keychain := st.keychain ++ [.idx 0] }
/-- On leaving an array. -/
def PState.closeArr (st : PState) : PState :=
  { st with keychain := st.keychain.dropLast, lastArrayType := st.lastArrayType.dropLast }

/-- Effect of a scalar, before its cell is allocated. -/
def Scalar.eff : Scalar → PState → Out PState
  | .dt d, st =>
    if d.validate then .ok st
    else (getFullKey st.map st.heap st.lastArrayTables st.lastArrayTablesIndex st.keychain).bind fun x =>
      .ok { st with errors := st.errors ++ [.invalidDateTime x.2.1 st.lineCount 0 d.text] }
  | .str s .mlBasic, st => .ok (st.lines (countLines (StrType.mlBasic.quoted s)))
  | .str s .mlLiteral, st => .ok (st.lines (countLines (StrType.mlLiteral.quoted s)))
  | _, st => .ok st

mutual
/-- Number of cells. -/
def VT.size : VT → Nat
  | .leaf _ => 1
  | .arr es _ _ => es.size + 1
  | .itab kvs _ => kvs.size + 1
def Elems.size : Elems → Nat
  | .nil => 0
  | .cons v _ _ r => v.size + r.size
def Pairs.size : Pairs → Nat
  | .nil => 0
  | .cons _ _ v _ _ r => v.size + r.size
end

/-- Address of the root of a value whose cells start at `n`. -/
def VT.addr (n : Nat) (t : VT) : Addr := n + t.size - 1

/-- The elements with their addresses. -/
def Elems.avs : Nat → Elems → List ArrayValue
  | _, .nil => []
  | n, .cons v sep cn r => ⟨v.addr n, sep, cn⟩ :: r.avs (n + v.size)

/-- The pairs with their addresses. -/
def Pairs.tkvs : Nat → Pairs → List TableKeyVal
  | _, .nil => []
  | n, .cons k ws v sep cn r => ⟨⟨k, ws, v.addr n⟩, sep, cn⟩ :: r.tkvs (n + v.size)

mutual
/-- The cells of a value, to be placed at `n`. -/
def VT.cells : Nat → VT → List TVal
  | _, .leaf s => [s.cell]
  | n, .arr es c1 c2 => es.cells n ++ [.arr (es.avs n) c1 c2]
  | n, .itab kvs ws => kvs.cells n ++ [.itab (kvs.tkvs n) ws]
def Elems.cells : Nat → Elems → List TVal
  | _, .nil => []
  | n, .cons v _ _ r => v.cells n ++ r.cells (n + v.size)
def Pairs.cells : Nat → Pairs → List TVal
  | _, .nil => []
  | n, .cons _ _ v _ _ r => v.cells n ++ r.cells (n + v.size)
end

mutual
/-- Effect of reading a value. -/
def VT.eff : VT → PState → Out PState
  | .leaf s, st => (s.eff st).bind fun st1 => .ok (st1.cell s.cell)
  | .arr es c1 c2, st => (es.eff st.openArr).bind fun st1 => .ok (st1.closeArr.cell (.arr (es.avs st.heap.length) c1 c2))
  | .itab kvs ws, st => (kvs.eff st).bind fun st1 => .ok (st1.cell (.itab (kvs.tkvs st.heap.length) ws))
def Elems.eff : Elems → PState → Out PState
  | .nil, st => .ok st
  | .cons v _ _ r, st => (v.eff st).bind fun st1 => (arrayValueAct (st1.heap.length - 1) st1).bind fun st2 => r.eff st2
def Pairs.eff : Pairs → PState → Out PState
  | .nil, st => .ok st
  | .cons k _ v _ _ r, st => (v.eff (st.pushK k)).bind fun st1 => (keyvalAct k (st1.heap.length - 1) st1).bind fun st2 => r.eff st2
end

/-- A value read only in part. -/
inductive PV where
  | nothing
  | val (t : VT)
  | arr (c1 : List CNL) (es : Elems) (last : PV)
  | itab (w : Str) (kvs : Pairs)
  | itabK (w : Str) (kvs : Pairs) (k : Str)
  | itabKV (w : Str) (kvs : Pairs) (k : Str) (ws : WSSep) (last : PV)

/-- The text read. -/
def PV.text : PV → Str
  | .nothing => []
  | .val t => t.text
  | .arr c1 es last => lit% "[" ++ gapText c1 ++ es.text ++ last.text
  | .itab w kvs => lit% "{" ++ w ++ kvs.text
  | .itabK w kvs k => lit% "{" ++ w ++ kvs.text ++ k
  | .itabKV w kvs k ws last => lit% "{" ++ w ++ kvs.text ++ k ++ ws.ws1 ++ lit% "=" ++ ws.ws2 ++ last.text

/-- The effect, ending in the state after the failure, or in the panic. -/
def PV.eff : PV → PState → Out PState
  | .nothing, st => .ok st
  | .val t, st => t.eff st
  | .arr _ es last, st => (es.eff st.openArr).bind fun st1 => (last.eff st1).bind fun st2 => .ok st2.closeArr
  | .itab _ kvs, st => kvs.eff st
  | .itabK _ kvs k, st => (kvs.eff st).bind fun st1 => .ok (st1.pushK k)
  | .itabKV _ kvs k _ last, st => (kvs.eff st).bind fun st1 => last.eff (st1.pushK k)

/-- Its parts are well-formed. -/
def PV.wf : PV → Prop
  | .nothing => True
  | .val t => t.wf
  | .arr c1 es last => CnlsWf c1 ∧ es.wf ∧ last.wf
  | .itab w kvs => Blank w ∧ kvs.wf
  | .itabK w kvs k => Blank w ∧ kvs.wf ∧ KeyWf k
  | .itabKV w kvs k ws last => Blank w ∧ kvs.wf ∧ KeyWf k ∧ ws.wf ∧ last.wf

/-- Push several keys. -/
def PState.pushKs (st : PState) (ks : List Str) : PState := { st with keychain := st.keychain ++ ks.map .str }

/-- Effect of a table header. -/
def TableType.eff : TableType → PState → Out PState
  | .std t, st => (stdTableAct t (st.pushKs (t.keys.map (·.key)))).bind fun x => .ok x.1
  | .arr t, st => (arrayTableAct t (st.pushKs (t.keys.map (·.key)))).bind fun x => .ok x.1

/-- Effect of a line. -/
def ET.eff : ET → PState → Out PState
  | .blank _, st => .ok st
  | .comment _ _, st => .ok st
  | .kv _ k _ v _ _, st => (v.eff (st.pushK k)).bind fun st1 => keyvalAct k (st1.heap.length - 1) st1
  | .table _ t _ _, st => t.eff st

/-- The tree node of a line whose cells start at `n`. -/
def ET.expr (n : Nat) : ET → Expression
  | .blank w => ⟨⟨w, []⟩, none, none, none⟩
  | .comment w c => ⟨⟨w, []⟩, none, none, some c⟩
  | .kv w1 k s v w2 c => ⟨⟨w1, w2⟩, some ⟨k, s, v.addr n⟩, none, c⟩
  | .table w1 t w2 c => ⟨⟨w1, w2⟩, none, some t, c⟩

/-- Effect of several lines, and their tree nodes. -/
def linesEff : List (Str × ET) → PState → Out (PState × List NLExpression)
  | [], st => .ok (st, [])
  | (nl, e) :: es, st => (e.eff (st.lines (nlCount nl))).bind fun st1 => (linesEff es st1).bind fun x =>
      .ok (x.1, ⟨nl, e.expr st.heap.length⟩ :: x.2)

/-- A line read only in part, after its leading blanks. -/
inductive PX where
  | nothing
  /-- A table header: its text and keys so far. -/
  | header (txt : Str) (ks : List Str)
  | key (k : Str)
  | kv (k : Str) (sep : WSSep) (last : PV)
  /-- A complete key/value pair. -/
  | pair (k : Str) (sep : WSSep) (v : VT)
  /-- A complete table header. -/
  | table (t : TableType)

/-- The text read. -/
def PX.text : PX → Str
  | .nothing => []
  | .header txt _ => txt
  | .key k => k
  | .kv k s last => k ++ s.ws1 ++ lit% "=" ++ s.ws2 ++ last.text
  | .pair k s v => k ++ s.ws1 ++ lit% "=" ++ s.ws2 ++ v.text
  | .table t => t.text

/-- The effect. -/
def PX.eff : PX → PState → Out PState
  | .nothing, st => .ok st
  | .header _ ks, st => .ok (st.pushKs ks)
  | .key k, st => .ok (st.pushK k)
  | .kv k _ last, st => last.eff (st.pushK k)
  | .pair k _ v, st => (v.eff (st.pushK k)).bind fun st1 => keyvalAct k (st1.heap.length - 1) st1
  | .table t, st => t.eff st

/-- Its parts are well-formed. -/
def PX.wf : PX → Prop
  | .nothing => True
  | .header _ ks => ∀ k ∈ ks, KeyWf k
  | .key k => KeyWf k
  | .kv k s last => KeyWf k ∧ s.wf ∧ last.wf
  | .pair k s v => KeyWf k ∧ s.wf ∧ v.wf
  | .table t => t.wf

/-! ## Sizes and heaps -/

mutual
theorem VT.cells_length : ∀ (t : VT) (n : Nat), (t.cells n).length = t.size
  | .leaf s, n => by simp [VT.cells, VT.size]
  | .arr es _ _, n => by simp [VT.cells, VT.size, Elems.cells_length es]
  | .itab kvs _, n => by simp [VT.cells, VT.size, Pairs.cells_length kvs]
theorem Elems.cells_length : ∀ (t : Elems) (n : Nat), (t.cells n).length = t.size
  | .nil, n => by simp [Elems.cells, Elems.size]
  | .cons v _ _ r, n => by simp [Elems.cells, Elems.size, VT.cells_length v, Elems.cells_length r]
theorem Pairs.cells_length : ∀ (t : Pairs) (n : Nat), (t.cells n).length = t.size
  | .nil, n => by simp [Pairs.cells, Pairs.size]
  | .cons _ _ v _ _ r, n => by simp [Pairs.cells, Pairs.size, VT.cells_length v, Pairs.cells_length r]
end

theorem VT.size_pos (t : VT) : 0 < t.size := by cases t <;> simp [VT.size]

theorem Out.bind_ok {α β : Type} {x : Out α} {f : α → Out β} {b : β} :
    x.bind f = .ok b ↔ ∃ a, x = .ok a ∧ f a = .ok b := by
  cases x <;> simp [Out.bind]

theorem Out.bind_eq {α β : Type} (x : Out α) (f : α → Out β) : (x >>= f) = x.bind f := rfl

theorem Out.ite_ok {α : Type} {c : Prop} [Decidable c] {x y z : α} (h : (if c then Out.ok x else Out.ok y) = .ok z) :
    z = x ∨ z = y := by
  split at h <;> (simp at h; simp [h])

theorem insertKeyval_heap {st st' : PState} {a : Addr} (h : insertKeyval st a = .ok st') : st'.heap = st.heap := by
  simp only [insertKeyval, Out.bind_eq, Out.bind_ok] at h
  obtain ⟨⟨full, parent⟩, _, h⟩ := h
  split at h
  · rw [Out.bind_ok] at h
    obtain ⟨v, _, h⟩ := h
    simp at h; subst h; rfl
  · split at h
    · simp at h
    · simp at h; subst h; rfl

theorem checkMixed_heap {t : ArrayType} {st st' : PState} (h : checkMixed t st = .ok st') : st'.heap = st.heap := by
  unfold checkMixed at h
  split at h
  · simp at h; subst h; rfl
  · split at h
    · simp at h; subst h; rfl
    · split at h
      · simp at h
      · simp at h
      · dsimp only at h
        rcases Out.ite_ok h with rfl | rfl <;> rfl

theorem arrayValueAct_heap {a : Addr} {st st' : PState} (h : arrayValueAct a st = .ok st') : st'.heap = st.heap := by
  simp only [arrayValueAct, Out.bind_eq, Out.bind_ok] at h
  obtain ⟨v, _, t, _, st1, h1, st2, h2, h⟩ := h
  split at h
  · simp at h
  · simp at h; subst h
    have := insertKeyval_heap h2
    have := checkMixed_heap h1
    simp_all

theorem keyvalAct_heap {k : Str} {a : Addr} {st st' : PState} (h : keyvalAct k a st = .ok st') : st'.heap = st.heap := by
  simp only [keyvalAct, Out.bind_eq, Out.bind_ok] at h
  obtain ⟨st1, h1, h⟩ := h
  simp at h; subst h
  split at h1
  · split at h1
    · simp at h1
    · rw [Out.bind_ok] at h1
      obtain ⟨v, _, h1⟩ := h1
      simp at h1; subst h1; rfl
    · simp at h1; subst h1; rfl
  · have := insertKeyval_heap h1
    simpa using this

theorem Scalar.eff_heap {s : Scalar} {st st' : PState} (h : s.eff st = .ok st') : st'.heap = st.heap := by
  unfold Scalar.eff at h
  split at h
  · split at h
    · simp at h; subst h; rfl
    · rw [Out.bind_ok] at h
      obtain ⟨x, _, h⟩ := h
      simp at h; subst h; rfl
  all_goals (simp at h; subst h; rfl)

mutual
theorem VT.eff_heap : ∀ (t : VT) (st st' : PState), t.eff st = .ok st' → st'.heap = st.heap ++ t.cells st.heap.length
  | .leaf s, st, st', h => by
    rw [VT.eff, Out.bind_ok] at h
    obtain ⟨st1, h1, h⟩ := h
    simp at h; subst h
    simp [PState.cell, VT.cells, Scalar.eff_heap h1]
  | .arr es c1 c2, st, st', h => by
    rw [VT.eff, Out.bind_ok] at h
    obtain ⟨st1, h1, h⟩ := h
    simp at h; subst h
    have := Elems.eff_heap es _ _ h1
    simp [PState.cell, VT.cells, PState.closeArr, this, PState.openArr]
  | .itab kvs ws, st, st', h => by
    rw [VT.eff, Out.bind_ok] at h
    obtain ⟨st1, h1, h⟩ := h
    simp at h; subst h
    have := Pairs.eff_heap kvs _ _ h1
    simp [PState.cell, VT.cells, this]
theorem Elems.eff_heap : ∀ (t : Elems) (st st' : PState), t.eff st = .ok st' → st'.heap = st.heap ++ t.cells st.heap.length
  | .nil, st, st', h => by
    simp [Elems.eff] at h; subst h; simp [Elems.cells]
  | .cons v sep cn r, st, st', h => by
    rw [Elems.eff, Out.bind_ok] at h
    obtain ⟨st1, h1, h⟩ := h
    rw [Out.bind_ok] at h
    obtain ⟨st2, h2, h⟩ := h
    have e1 := VT.eff_heap v _ _ h1
    have e2 := arrayValueAct_heap h2
    have e3 := Elems.eff_heap r _ _ h
    rw [e3, e2, e1]
    simp [Elems.cells, VT.cells_length]
theorem Pairs.eff_heap : ∀ (t : Pairs) (st st' : PState), t.eff st = .ok st' → st'.heap = st.heap ++ t.cells st.heap.length
  | .nil, st, st', h => by
    simp [Pairs.eff] at h; subst h; simp [Pairs.cells]
  | .cons k ws v sep cn r, st, st', h => by
    rw [Pairs.eff, Out.bind_ok] at h
    obtain ⟨st1, h1, h⟩ := h
    rw [Out.bind_ok] at h
    obtain ⟨st2, h2, h⟩ := h
    have e1 := VT.eff_heap v _ _ h1
    have e2 := keyvalAct_heap h2
    have e3 := Pairs.eff_heap r _ _ h
    rw [e3, e2, e1]
    simp [Pairs.cells, VT.cells_length, PState.pushK]
end

theorem VT.eff_length {t : VT} {st st' : PState} (h : t.eff st = .ok st') : st'.heap.length = st.heap.length + t.size := by
  rw [VT.eff_heap _ _ _ h]; simp [VT.cells_length]

theorem VT.eff_addr {t : VT} {st st' : PState} (h : t.eff st = .ok st') : st'.heap.length - 1 = t.addr st.heap.length := by
  rw [VT.eff_length h, VT.addr]

end Tomllib
