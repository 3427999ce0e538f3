import Verif.Lemmas.Header
/-!
# Documents without arrays of tables, line by line
-/

namespace Tomllib

/-- Entries with the addresses of their cells. -/
abbrev AEnts := List (Str × Addr × Entry)

/-- The cell of an entry is what the entry says. -/
def Entry.Rep (h : Heap) (a : Addr) : Entry → Prop
  | .val t => ∃ fp, t.Rep h a fp
  | .header => h[a]? = some .table

theorem Entry.Rep.append {h : Heap} {a : Addr} {e : Entry} (hr : e.Rep h a) (l : Heap) : e.Rep (h ++ l) a := by
  cases e with
  | val t => obtain ⟨fp, h1⟩ := hr; exact ⟨fp, h1.append l⟩
  | header =>
    have := (List.getElem?_eq_some_iff.mp hr).1
    show (h ++ l)[a]? = _
    rw [List.getElem?_append_left this]; exact hr

/-- The state after the lines with the entries `E`, in the table with the names `T`. -/
structure DocInv (T : List Str) (E : AEnts) (st : PState) : Prop where
  ctx : Ctx T st
  inv : Inv st
  kc : st.keychain = []
  tab : Tab st.map st.heap
  root : st.map.get? root ≠ none
  free : Free st.map st.heap T
  here : st.map.get? (par T) ≠ none
  vals : ∀ x, valOf st.map x = (lookup x E).map (·.1)
  rep : ∀ e ∈ E, e.2.2.Rep st.heap e.2.1

theorem DocInv.new : DocInv [] [] PState.new := by
  have hget : ∀ x, PState.new.map.get? x = if Tomllib.root = x then some ⟨none, .keys []⟩ else none := by
    intro x
    simp [PState.new, SMap.get?]
  refine ⟨⟨rfl, rfl, by simp [NamesWf], by simp [PState.new]⟩, Inv.new, rfl, ⟨?_, ?_, ?_⟩, ?_, ?_, ?_, ?_, by simp⟩
  · intro Q k hQ _ hs _
    rw [hget, if_neg (Ne.symm (nkey_ne_root hQ))] at hs
    exact absurd rfl hs
  · intro Q hQ _ _ hv e
    rw [hget] at e
    split at e
    · simp at e; subst e; exact ⟨_, rfl⟩
    · simp at e
  · rintro Q k hQ _ ⟨v, ks, h1, h2⟩
    rw [hget] at h1
    split at h1
    · simp at h1; rw [h1.2] at h2; simp at h2
    · simp at h1
  · rw [hget, if_pos rfl]; simp
  · intro a b ha e
    simp at e; exact absurd e.1 ha
  · rw [show par [] = Tomllib.root from rfl, hget, if_pos rfl]; simp
  · intro x
    rw [valOf, hget]
    split <;> rfl

theorem DocInv.linesN {T : List Str} {E : AEnts} {st : PState} (h : DocInv T E st) (n : Nat) : DocInv T E (st.lines n) :=
  ⟨h.ctx.congr rfl rfl rfl rfl, h.inv.linesN n, h.kc, h.tab, h.root, h.free, h.here, h.vals, h.rep⟩

/-- The entries of a line. -/
def kvEnts (T : List Str) (n : Nat) (k : Str) (v : VT) : AEnts :=
  (v.aents (nkey (T ++ [k])) n).map (fun e => (e.1, e.2.1, .val e.2.2)) ++ [(nkey (T ++ [k]), v.addr n, .val v)]

theorem lookup_kvEnts (x : Str) (T : List Str) (n : Nat) (k : Str) (v : VT) : (lookup x (kvEnts T n k v)).map (·.1) =
    ((lookup x (v.aents (nkey (T ++ [k])) n)).map (·.1)).or (if nkey (T ++ [k]) = x then some (v.addr n) else none) := by
  rw [kvEnts, lookup_append]
  have := lookup_map (fun e : Addr × VT => (e.1, Entry.val e.2)) x (v.aents (nkey (T ++ [k])) n)
  rw [show (fun e : Str × Addr × VT => (e.1, e.2.1, Entry.val e.2.2)) = (fun e => (e.1, (fun e : Addr × VT => (e.1, Entry.val e.2)) e.2)) from rfl, this]
  cases lookup x (v.aents (nkey (T ++ [k])) n) with
  | some y => rfl
  | none =>
    simp only [Option.map_none, Option.none_or, lookup]
    split <;> rfl

theorem kvEnts_below {T : List Str} {n : Nat} {k : Str} {v : VT} {e : Str × Addr × Entry} (hv : v.wf) (_hk : KeyWf k) (h : e ∈ kvEnts T n k v) :
    ∃ q, TailWf q ∧ e.1 = keyOf [] (names (T ++ [k]) ++ q) := by
  rw [kvEnts, List.mem_append, List.mem_map] at h
  rcases h with ⟨y, hy, rfl⟩ | h
  · obtain ⟨q, _, h2, h3⟩ := v.aents_below _ _ hv y hy
    exact ⟨q, h2, h3⟩
  · simp at h; subst h
    exact ⟨[], by simp [TailWf], by simp⟩

/-- A line `k = v`. -/
theorem DocInv.kv {T : List Str} {E : AEnts} {st st' : PState} (h : DocInv T E st) {w1 k : Str} {s : WSSep} {v : VT} {w2 : Str} {c : Option Str}
    (hw : KeyWf k) (hv : v.wf) (he : ET.eff (.kv w1 k s v w2 c) st = .ok st') : DocInv T (E ++ kvEnts T st.heap.length k v) st' := by
  rw [ET.eff, Out.bind_ok] at he
  obtain ⟨st1, h1, h2⟩ := he
  have hcp : Ctx T (st.pushK k) := h.ctx.congr rfl rfl rfl rfl
  have hTw := h.ctx.2.2.1
  have hpk : (st.pushK k).keychain = names [k] := by simp [PState.pushK, h.kc, names]
  have hkw : NamesWf [k] := fun x hx => by simp at hx; subst hx; exact hw
  have hnw : NamesWf (T ++ [k]) := hTw.append hkw
  have e1 := VT.eff_heap _ _ _ h1
  have e2 := keyvalAct_heap h2
  have f1 := VT.eff_frame h1
  have hc1 := hcp.frame f1
  have f2 := keyvalAct_frame h2
  have hc2 : Ctx T st' := hc1.congr f2.2.lastTable f2.2.tables f2.2.index f2.2.err
  have all1 := v.eff_all (h.inv.pushK k)
  rw [h1] at all1
  obtain ⟨i1, t1⟩ := all1
  have i2 := keyvalAct_all (k := k) i1 t1
  rw [h2] at i2
  have hH : st'.heap = st.heap ++ v.cells st.heap.length := by rw [e2, e1]; rfl
  have hpw : PathWf (st.pushK k).keychain := by rw [hpk]; exact hkw.path
  have hne1 : (st.pushK k).keychain ≠ [] := by simp [PState.pushK]
  obtain ⟨a1, a2⟩ := v.eff_val hcp hpw hne1 hv h1
  have hself := VT.eff_val_self hcp hpw hne1 hv h1
  have hfull : names T ++ (st.pushK k).keychain = names (T ++ [k]) := by rw [hpk, ← names_append]
  rw [hfull] at a1 a2 hself
  obtain ⟨b0, b1, b2⟩ := keyvalAct_val hc1 hw (kc := []) trivial (by rw [f1.keychain, hpk]; rfl) h2
  have hfull2 : names T ++ [] ++ [Key.str k] = names (T ++ [k]) := by simp [names]
  rw [hfull2] at b1 b2
  have hsame : (st.pushK k).map = st.map := rfl
  have hsameh : (st.pushK k).heap = st.heap := rfl
  rw [hsame] at a1 a2 hself
  rw [hsameh] at a1
  have hval : ∀ x, valOf st'.map x = (valOf st.map x).or ((lookup x (kvEnts T st.heap.length k v)).map (·.1)) := by
    intro x
    rw [b1 x, a1 x, lookup_kvEnts, Option.or_assoc', VT.eff_addr h1]
    rfl
  have htab0 : Tab st.map st'.heap := by rw [hH]; exact h.tab.append h.inv.map _
  have hXF : ∀ Q : List Str, (False ∨ Q = T ++ [k]) = (Q = T ++ [k]) := by simp
  have htab1 : TabX (fun Q => False ∨ Q = T ++ [k]) st1.map st'.heap := by
    refine v.eff_tab (X := fun Q => False ∨ Q = T ++ [k]) (ps := [k]) hcp (h.inv.pushK k) hpk (by simp) hnw hv (by simp) (fun q hq => ?_) (fun hf => ?_)
      (htab0.weaken fun Q h => .inl h) h1 (l := []) (by rw [e2]; simp)
    · simp [hq]
    · exact htab0.kind _ hnw hf (by simp)
  have hfreeT : Free st.map st'.heap T := by rw [hH]; exact (Free.append h.inv.map).mpr h.free
  have hwp : st1.map.get? (par T) = st.map.get? (par T) := Within.par (q := []) (by rw [List.append_nil]; exact a2) hTw hw
  have key := keyvalAct_tab (X := fun _ => False) (T := T) (ps := []) (m0 := st.map) (H := st'.heap) hc1 (by simpa using hnw)
    (by rw [f1.keychain, hpk]; rfl) h2 (by simp) (.inr (by rw [List.append_nil, hwp]; exact h.here)) (by simpa using htab1) htab0
    (fun hf => htab0.kind _ (by simpa using hTw) hf (by simp)) (show Mono (st.pushK k).map st1.map from v.eff_mono h1)
    (fun x b hb => by rw [a1 x, hb]; rfl) (by simpa using hself) (by rw [List.append_nil]; exact hwp) (by
      rw [e2]; exact t1.val)
  have hmono : Mono st.map st'.map := Mono.trans (show Mono (st.pushK k).map st1.map from v.eff_mono h1) (keyvalAct_mono h2)
  refine ⟨hc2, i2, b0, key.1, hmono.some _ h.root, ?_, hmono.some _ h.here, fun x => ?_, fun e he => ?_⟩
  · intro a b ha e
    rw [keyHasValue_congr (m := st.map)]
    · exact hfreeT a b ha e
    · rw [hval]
      have hl : lookup (nkey a) (kvEnts T st.heap.length k v) = none := by
        rw [lookup_none]
        intro y hy
        obtain ⟨q, q1, q2⟩ := kvEnts_below hv hw hy
        have := keyOf_inj (NamesWf.path (fun z hz => hTw z (by rw [← e]; simp [hz]))) (hnw.path.append (names_ne (by simp)) q1) q2
        have hl := congrArg List.length this
        have hl2 := congrArg List.length e
        simp [names] at hl hl2
        omega
      rw [hl]; simp
  · rw [hval x, h.vals x, lookup_append]
    cases lookup x E <;> simp
  · rw [List.mem_append] at he
    rcases he with he | he
    · rw [hH]; exact (h.rep e he).append _
    · rw [kvEnts, List.mem_append] at he
      rcases he with he | he
      · rw [List.mem_map] at he
        obtain ⟨y, hy, rfl⟩ := he
        have := v.aents_rep (nkey (T ++ [k])) st.heap [] y hy
        rw [List.append_nil] at this
        rw [hH]; exact this
      · simp at he; subst he
        obtain ⟨fp, hr, _⟩ := v.rep_cells st.heap []
        rw [List.append_nil] at hr
        rw [hH]; exact ⟨fp, hr⟩

/-- The entries without the addresses. -/
def AEnts.erase (E : AEnts) : List (Str × Entry) := E.map fun e => (e.1, e.2.2)

theorem AEnts.erase_append (E F : AEnts) : AEnts.erase (E ++ F) = E.erase ++ F.erase := by simp [AEnts.erase]

theorem AEnts.lookup_erase (E : AEnts) (x : Str) : lookup x E.erase = (lookup x E).map (·.2) := lookup_map (fun e : Addr × Entry => e.2) x E

theorem joinKey_eq (N : List Str) : joinKey N = nkey N := by
  simp only [joinKey, nkey, keyOf, names, List.foldl_map, Key.add]

theorem DocInv.isValue {T : List Str} {E : AEnts} {st : PState} (h : DocInv T E st) (x : Str) :
    keyHasValue st.map st.heap x = true ↔ IsValue E.erase x := by
  rw [keyHasValue_eq, IsValue]
  simp only [E.lookup_erase, h.vals]
  cases hl : lookup x E with
  | none => simp
  | some y =>
    obtain ⟨a, e⟩ := y
    have hr := h.rep _ (lookup_mem hl)
    cases e with
    | val t =>
      obtain ⟨fp, hr⟩ := hr
      have := (hr.bound a hr.kids.1).2
      simp [this]
    | header =>
      have hr : st.heap[a]? = some .table := hr
      simp [hr]

theorem DocInv.headerGood {T : List Str} {E : AEnts} {st : PState} (h : DocInv T E st) {N : List Str} (hN : N ≠ []) :
    HeaderGood st.map st.heap N ↔ HeaderOk E.erase N := by
  have hv : ∀ x, keyHasValue st.map st.heap x = false ↔ ¬ IsValue E.erase x := by
    intro x; rw [← h.isValue]; simp
  unfold HeaderGood HeaderOk Free
  simp only [hv, joinKey_eq, E.lookup_erase, h.vals]
  simp

/-- A header of a table. -/
theorem DocInv.header {T : List Str} {E : AEnts} {st : PState} (h : DocInv T E st) {t : Table} (hw : (TableType.std t).wf) :
    (HeaderOk E.erase t.names → ∃ st', TableType.eff (.std t) st = .ok st' ∧ DocInv t.names (E ++ [(nkey t.names, st.heap.length, .header)]) st' ∧
      st'.heap.length = st.heap.length + 1 ∧ st'.errors = st.errors) ∧
    (¬ HeaderOk E.erase t.names → ∃ st', TableType.eff (.std t) st = .ok st' ∧ st'.errors = st.errors ++ [.invalidTable (nkey t.names) st.lineCount 0 []]) := by
  have hne : t.names ≠ [] := by
    have : t.keys ≠ [] := hw.1
    simpa [Table.names] using this
  have hnw : NamesWf t.names := by
    intro k hk
    simp [Table.names] at hk
    obtain ⟨x, hx, rfl⟩ := hk
    exact (hw.2 x hx).2
  have hcp : Ctx T (st.pushKs t.names) := h.ctx.congr rfl rfl rfl rfl
  obtain ⟨b, c1, c2⟩ := stdCheck_spec h.tab hw hnw hne
  rw [h.headerGood hne] at c2
  have hpop := h.ctx.pop (.std t)
  have hlen : ¬ (st.pushKs t.names).keychain.length < t.keys.length := by
    simp [PState.pushKs, Table.names]
  have hkc : (st.pushKs t.names).keychain.take ((st.pushKs t.names).keychain.length - t.keys.length) = [] := by
    simp [PState.pushKs, h.kc, Table.names]
  have hlast : (t.keys.map (·.key)).getLastD [] = t.names.getLast hne := by
    show t.names.getLastD [] = _
    rw [List.getLastD_eq_getLast?, List.getLast?_eq_some_getLast hne]; rfl
  have hsplit : t.names = t.names.dropLast ++ [t.names.getLast hne] := (List.dropLast_concat_getLast hne).symm
  constructor
  · intro hok
    have hb : b = false := c2.mpr hok
    subst hb
    have hg := (h.headerGood hne).mpr hok
    rw [hsplit] at hg
    obtain ⟨m1, m2, m', r1, r2, r3, r4, r5, r6, r7⟩ := h.tab.header h.inv.map (t := t) hsplit (by rw [← hsplit]; exact hnw) hg.1 hg.2.1 h.root
    rw [← hsplit] at r3 r5 r7
    have heff : TableType.eff (.std t) st = .ok { st.pushKs t.names with
        keychain := [], lastArrayTables := [.std t], lastArrayTablesIndex := [0], arrayError := false, map := m', heap := st.heap ++ [TVal.table], lastTable := some (.std t) } := by
      show (stdTableAct t (st.pushKs t.names)).bind _ = _
      have e1 : (st.pushKs t.names).map = st.map := rfl
      have e2 : (st.pushKs t.names).heap = st.heap := rfl
      have e3 : (st.pushKs t.names).lastArrayTables = st.lastArrayTables := rfl
      have e4 : (st.pushKs t.names).lastArrayTablesIndex = st.lastArrayTablesIndex := rfl
      simp only [stdTableAct, if_neg hlen, Out.bind_eq, hkc, e1, e2, e3, e4, hpop, c1, Out.bind, hlast, r1, r2, r3]
      rfl
    refine ⟨_, heff, ?_, by simp, rfl⟩
    have hinv := (TableType.std t).eff_all h.inv
    rw [heff] at hinv
    have hval : ∀ x, valOf m' x = (lookup x (E ++ [(nkey t.names, st.heap.length, Entry.header)])).map (·.1) := by
      intro x
      rw [r5 x, lookup_append, h.vals]
      split
      next e =>
        subst e
        have := hg.2.1
        rw [← hsplit, h.vals] at this
        simp at this
        rw [this]
        simp [lookup]
      next e =>
        simp only [lookup, if_neg e]
        simp
    refine ⟨⟨rfl, rfl, hnw, ?_⟩, hinv, rfl, r4, r6.some _ h.root, ?_, ?_, hval, ?_⟩
    · rw [if_neg hne]; exact ⟨t, hw, rfl, rfl, rfl⟩
    · intro a c ha e
      have hfr := (h.headerGood hne).mpr hok
      have h0 := hfr.1 a c ha e
      cases hk : keyHasValue m' (st.heap ++ [TVal.table]) (nkey a) with
      | false => rfl
      | true =>
        rw [keyHasValue_eq] at hk
        obtain ⟨y, y1, y2⟩ := hk
        rw [r5] at y1
        split at y1
        · simp at y1; subst y1; simp at y2
        · have : keyHasValue st.map st.heap (nkey a) = true := by
            rw [keyHasValue_eq]
            exact ⟨y, y1, by rwa [List.getElem?_append_left (h.inv.map.lt _ y y1)] at y2⟩
          rw [this] at h0; simp at h0
    · rw [par_ne hne]; exact r7
    · intro e he
      rw [List.mem_append] at he
      rcases he with he | he
      · exact (h.rep e he).append _
      · simp at he; subst he
        show (st.heap ++ [TVal.table])[st.heap.length]? = _
        simp
  · intro hbad
    have hb : b = true := by
      cases b with
      | true => rfl
      | false => exact absurd (c2.mp rfl) hbad
    subst hb
    obtain ⟨v, k1, _⟩ := getArrayTableKey_std st.map st.heap hw [] 0
    refine ⟨{ st.pushKs t.names with
        keychain := [], lastArrayTables := [], lastArrayTablesIndex := [], errors := st.errors ++ [.invalidTable (nkey t.names) st.lineCount 0 []], arrayError := true }, ?_, rfl⟩
    show (stdTableAct t (st.pushKs t.names)).bind _ = _
    have e1 : (st.pushKs t.names).map = st.map := rfl
    have e2 : (st.pushKs t.names).heap = st.heap := rfl
    have e3 : (st.pushKs t.names).lastArrayTables = st.lastArrayTables := rfl
    have e4 : (st.pushKs t.names).lastArrayTablesIndex = st.lastArrayTablesIndex := rfl
    simp only [stdTableAct, if_neg hlen, Out.bind_eq, hkc, e1, e2, e3, e4, hpop, c1, Out.bind, List.nil_append, k1]
    rfl

end Tomllib
