import Verif.Lemmas.Inv
/-!
# Reading values does not panic while the stack of headers is empty
-/

namespace Tomllib

/-- The stack of headers is empty. -/
structure Quiet (st : PState) : Prop where
  inv : Inv st
  tabs : st.lastArrayTables = []
  idx : st.lastArrayTablesIndex = []

theorem Quiet.congr {st st' : PState} (h : Quiet st) (hi : Inv st') (h1 : st'.lastArrayTables = st.lastArrayTables) (h2 : st'.lastArrayTablesIndex = st.lastArrayTablesIndex) :
    Quiet st' := ⟨hi, h1.trans h.tabs, h2.trans h.idx⟩

theorem getFullKey_quiet (m : KMap) (h : Heap) (ts : List TableType) (kc : List Key) : ∃ x, getFullKey m h ts [] kc = .ok x := by
  have : getArrayTableKey m h ts [] = .ok (true, [], root) := by
    unfold getArrayTableKey
    cases ts <;> simp [arrayTableKeyLoop]
  rw [getFullKey, this]
  exact ⟨_, rfl⟩

theorem insertKeys_quiet {st : PState} (h : Quiet st) : ∃ x, insertKeys st = .ok x := by
  unfold insertKeys
  rw [h.idx]
  split
  · exact ⟨_, rfl⟩
  next t _ =>
    obtain ⟨x, e⟩ := getFullKey_quiet st.map st.heap (st.lastArrayTables ++ [.std t]) st.keychain
    rw [e]; exact ⟨_, rfl⟩
  · obtain ⟨x, e⟩ := getFullKey_quiet st.map st.heap st.lastArrayTables st.keychain
    rw [e]; exact ⟨_, rfl⟩

theorem insertKeyval_quiet {st : PState} (h : Quiet st) (ht : Top st) (hne : st.keychain ≠ []) : ∃ st', insertKeyval st (st.heap.length - 1) = .ok st' := by
  obtain ⟨v, hv⟩ := Top.toVal h.inv ht
  obtain ⟨x, hx⟩ := insertKeys_quiet h
  simp only [insertKeyval, hx, Out.bind_eq, Out.bind, hv, List.getLast?_eq_some_getLast hne]
  split <;> exact ⟨_, rfl⟩

theorem checkMixed_quiet {st : PState} (t : ArrayType) (h : Quiet st) : ∃ st', checkMixed t st = .ok st' := by
  unfold checkMixed
  split
  · exact ⟨_, rfl⟩
  · split
    · exact ⟨_, rfl⟩
    · obtain ⟨⟨v, f, p⟩, e⟩ := getFullKey_quiet st.map st.heap st.lastArrayTables st.keychain
      have e' : getFullKey st.map st.heap st.lastArrayTables st.lastArrayTablesIndex st.keychain = .ok (v, f, p) := by rw [h.idx]; exact e
      rw [e']
      dsimp only
      have : ∀ b : Bool, ∃ st', (if b = true then Out.ok { st with errors := st.errors ++ [.mixedArray p st.lineCount 0] } else Out.ok st) = .ok st' := by
        intro b; cases b <;> exact ⟨_, rfl⟩
      exact this _

theorem arrayValueAct_quiet {st : PState} (h : Quiet st) (ht : Top st) (hne : st.keychain ≠ []) :
    ∃ st', arrayValueAct (st.heap.length - 1) st = .ok st' ∧ st'.keychain ≠ [] := by
  have hpos : 0 < st.heap.length := List.length_pos_iff.mpr ht.pos
  have hv : st.heap[st.heap.length - 1]? = some st.heap[st.heap.length - 1] := List.getElem?_eq_getElem (by omega)
  obtain ⟨t, htt⟩ := TVal.arrayType_ok (v := st.heap[st.heap.length - 1]) (by intro e; rw [e] at hv; exact ht.val hv)
  simp only [arrayValueAct, Out.bind_eq, hv, Out.bind, htt]
  obtain ⟨st1, e1⟩ := checkMixed_quiet t h
  have hall := checkMixed_all (t := t) h.inv ht
  rw [e1] at hall
  obtain ⟨i1, t1⟩ := hall
  have f1 := checkMixed_frame e1
  have c1 : Quiet { st1 with lastArrayType := st1.lastArrayType.dropLast ++ [t] } :=
    h.congr (i1.congr rfl rfl rfl rfl rfl rfl rfl) f1.tables f1.index
  have t2 : Top { st1 with lastArrayType := st1.lastArrayType.dropLast ++ [t] } := ⟨t1.1, t1.2, t1.3⟩
  have k1 : st1.keychain = st.keychain := f1.keychain
  obtain ⟨st2, e2⟩ := insertKeyval_quiet c1 t2 (by rw [k1]; exact hne)
  have el : st1.heap.length = st.heap.length := by rw [checkMixed_heap e1]
  simp only [el] at e2
  have f2 := insertKeyval_frame e2
  have k2 : st2.keychain = st.keychain := f2.keychain.trans k1
  rw [e1]
  dsimp only
  rw [e2]
  dsimp only
  rw [k2, List.getLast?_eq_some_getLast hne]
  exact ⟨_, rfl, by simp⟩

theorem keyvalAct_quiet {st : PState} (k : Str) (h : Quiet st) (ht : Top st) (hne : st.keychain ≠ []) :
    ∃ st', keyvalAct k (st.heap.length - 1) st = .ok st' := by
  simp only [keyvalAct, Out.bind_eq]
  obtain ⟨v, hv⟩ := Top.toVal h.inv ht
  by_cases he : st.arrayError = true
  · simp only [he, if_true, List.getLast?_eq_some_getLast (h.inv.err he), hv, Out.bind]
    generalize st.errors.getLast (h.inv.err he) = e
    cases e <;> exact ⟨_, rfl⟩
  · obtain ⟨st1, e1⟩ := insertKeyval_quiet h ht hne
    simp only [if_neg he, e1, Out.bind]
    exact ⟨_, rfl⟩

theorem Scalar.eff_quiet {st : PState} (s : Scalar) (h : Quiet st) : ∃ st', s.eff st = .ok st' := by
  unfold Scalar.eff
  split
  · split
    · exact ⟨_, rfl⟩
    · obtain ⟨v, e⟩ := getFullKey_quiet st.map st.heap st.lastArrayTables st.keychain
      rw [h.idx, e]
      exact ⟨_, rfl⟩
  all_goals exact ⟨_, rfl⟩

mutual
theorem VT.eff_quiet : ∀ (t : VT) {st : PState}, Quiet st → ∃ st', t.eff st = .ok st'
  | .leaf s, st, h => by
    obtain ⟨st1, e⟩ := s.eff_quiet h
    rw [VT.eff, e]
    exact ⟨_, rfl⟩
  | .arr es c1 c2, st, h => by
    obtain ⟨st1, e, _⟩ := Elems.eff_quiet es (st := st.openArr) (h.congr h.inv.openArr rfl rfl) (by simp [PState.openArr])
    rw [VT.eff, e]
    exact ⟨_, rfl⟩
  | .itab kvs ws, st, h => by
    obtain ⟨st1, e⟩ := Pairs.eff_quiet kvs h
    rw [VT.eff, e]
    exact ⟨_, rfl⟩
theorem Elems.eff_quiet : ∀ (t : Elems) {st : PState}, Quiet st → st.keychain ≠ [] → ∃ st', t.eff st = .ok st' ∧ st'.keychain ≠ []
  | .nil, st, h, hne => ⟨st, by rw [Elems.eff], hne⟩
  | .cons v sep cn r, st, h, hne => by
    obtain ⟨st1, e1⟩ := VT.eff_quiet v h
    have all1 := v.eff_all h.inv
    rw [e1] at all1
    have f1 := VT.eff_frame e1
    have h1 := h.congr all1.1 f1.tables f1.index
    obtain ⟨st2, e2, k2⟩ := arrayValueAct_quiet h1 all1.2 (by rw [f1.keychain]; exact hne)
    have all2 := arrayValueAct_all all1.1 all1.2
    rw [e2] at all2
    have f2 := arrayValueAct_frame e2
    obtain ⟨st3, e3, k3⟩ := Elems.eff_quiet r (h1.congr all2 f2.tables f2.index) k2
    exact ⟨st3, by rw [Elems.eff, e1, Out.bind, e2, Out.bind, e3], k3⟩
theorem Pairs.eff_quiet : ∀ (t : Pairs) {st : PState}, Quiet st → ∃ st', t.eff st = .ok st'
  | .nil, st, h => ⟨st, by rw [Pairs.eff]⟩
  | .cons k ws v sep cn r, st, h => by
    have hp : Quiet (st.pushK k) := h.congr (h.inv.pushK k) rfl rfl
    obtain ⟨st1, e1⟩ := VT.eff_quiet v hp
    have all1 := v.eff_all hp.inv
    rw [e1] at all1
    have f1 := VT.eff_frame e1
    have h1 := hp.congr all1.1 f1.tables f1.index
    obtain ⟨st2, e2⟩ := keyvalAct_quiet k h1 all1.2 (by rw [f1.keychain]; simp [PState.pushK])
    have all2 := keyvalAct_all (k := k) all1.1 all1.2
    rw [e2] at all2
    obtain ⟨_, b1⟩ := keyvalAct_frame e2
    obtain ⟨st3, e3⟩ := Pairs.eff_quiet r (h1.congr all2 b1.tables b1.index)
    exact ⟨st3, by rw [Pairs.eff, e1, Out.bind, e2, Out.bind, e3]⟩
end

theorem PV.eff_quiet : ∀ (t : PV) {st : PState}, Quiet st → ∃ st', t.eff st = .ok st'
  | .nothing, st, h => ⟨st, rfl⟩
  | .val t, st, h => t.eff_quiet h
  | .arr c1 es last, st, h => by
    obtain ⟨st1, e1, _⟩ := es.eff_quiet (st := st.openArr) (h.congr h.inv.openArr rfl rfl) (by simp [PState.openArr])
    have a1 := es.eff_all h.inv.openArr
    rw [e1] at a1
    have f1 := Elems.eff_frame e1
    obtain ⟨st2, e2⟩ := PV.eff_quiet last (h.congr a1 f1.tables f1.index)
    exact ⟨st2.closeArr, by rw [PV.eff, e1, Out.bind, e2, Out.bind]⟩
  | .itab w kvs, st, h => kvs.eff_quiet h
  | .itabK w kvs k, st, h => by
    obtain ⟨st1, e1⟩ := kvs.eff_quiet h
    exact ⟨_, by rw [PV.eff, e1, Out.bind]⟩
  | .itabKV w kvs k ws last, st, h => by
    obtain ⟨st1, e1⟩ := kvs.eff_quiet h
    have a1 := kvs.eff_all h.inv
    rw [e1] at a1
    have f1 := Pairs.eff_frame e1
    obtain ⟨st2, e2⟩ := PV.eff_quiet last (st := st1.pushK k) (h.congr (Inv.pushK a1 k) f1.tables f1.index)
    exact ⟨st2, by rw [PV.eff, e1, Out.bind, e2]⟩

end Tomllib
