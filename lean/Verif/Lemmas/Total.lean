import Verif.Lemmas.Tab
/-!
# Reading values does not panic outside of arrays of tables
-/

namespace Tomllib

theorem Ctx.fullKey {T : List Str} {st : PState} (h : Ctx T st) (hk : PathWf st.keychain) (hne : st.keychain ≠ []) :
    ∃ v, Tomllib.getFullKey st.map st.heap st.lastArrayTables st.lastArrayTablesIndex st.keychain =
      .ok (v, keyOf [] (names T ++ st.keychain), keyOf [] (names T ++ st.keychain.dropLast)) := by
  obtain ⟨v, e⟩ := h.getFullKey hk hne [] (fun _ => trivial)
  simp at e
  exact ⟨v, e⟩

theorem Scalar.eff_total {T : List Str} {st : PState} (s : Scalar) (h : Ctx T st) (hk : PathWf st.keychain) (hne : st.keychain ≠ []) :
    ∃ st', s.eff st = .ok st' := by
  unfold Scalar.eff
  split
  · split
    · exact ⟨_, rfl⟩
    · obtain ⟨v, e⟩ := h.fullKey hk hne
      rw [e]
      exact ⟨_, rfl⟩
  all_goals exact ⟨_, rfl⟩

theorem insertKeyval_total {T : List Str} {st : PState} (h : Ctx T st) (hi : Inv st) (ht : Top st) (hk : PathWf st.keychain) (hne : st.keychain ≠ []) :
    ∃ st', insertKeyval st (st.heap.length - 1) = .ok st' := by
  obtain ⟨v, hv⟩ := Top.toVal hi ht
  simp only [insertKeyval, h.insertKeys hk hne, Out.bind_eq, Out.bind, hv, List.getLast?_eq_some_getLast hne]
  split <;> exact ⟨_, rfl⟩

theorem checkMixed_total {T : List Str} {st : PState} (t : ArrayType) (h : Ctx T st) (hk : PathWf st.keychain) (hne : st.keychain ≠ []) :
    ∃ st', checkMixed t st = .ok st' := by
  unfold checkMixed
  split
  · exact ⟨_, rfl⟩
  · split
    · exact ⟨_, rfl⟩
    · obtain ⟨v, e⟩ := h.fullKey hk hne
      rw [e]
      dsimp only
      have : ∀ b : Bool, ∃ st', (if b = true then Out.ok { st with errors := st.errors ++ [.mixedArray (keyOf [] (names T ++ st.keychain.dropLast)) st.lineCount 0] } else Out.ok st) = .ok st' := by
        intro b; cases b <;> exact ⟨_, rfl⟩
      exact this _

theorem arrayValueAct_total {T : List Str} {st : PState} (h : Ctx T st) (hi : Inv st) (ht : Top st) (hk : PathWf st.keychain) (hne : st.keychain ≠ []) :
    ∃ st', arrayValueAct (st.heap.length - 1) st = .ok st' := by
  have hpos : 0 < st.heap.length := List.length_pos_iff.mpr ht.pos
  have hv : st.heap[st.heap.length - 1]? = some st.heap[st.heap.length - 1] := List.getElem?_eq_getElem (by omega)
  obtain ⟨t, htt⟩ := TVal.arrayType_ok (v := st.heap[st.heap.length - 1]) (by intro e; rw [e] at hv; exact ht.val hv)
  simp only [arrayValueAct, Out.bind_eq, hv, Out.bind, htt]
  obtain ⟨st1, e1⟩ := checkMixed_total t h hk hne
  have hall := checkMixed_all (t := t) hi ht
  rw [e1] at hall
  obtain ⟨i1, t1⟩ := hall
  have f1 := checkMixed_frame e1
  have c1 : Ctx T { st1 with lastArrayType := st1.lastArrayType.dropLast ++ [t] } := (h.frame f1).congr rfl rfl rfl rfl
  have i2 : Inv { st1 with lastArrayType := st1.lastArrayType.dropLast ++ [t] } := i1.congr rfl rfl rfl rfl rfl rfl rfl
  have t2 : Top { st1 with lastArrayType := st1.lastArrayType.dropLast ++ [t] } := ⟨t1.1, t1.2, t1.3⟩
  have k1 : st1.keychain = st.keychain := f1.keychain
  obtain ⟨st2, e2⟩ := insertKeyval_total c1 i2 t2 (by rw [k1]; exact hk) (by rw [k1]; exact hne)
  have el : st1.heap.length = st.heap.length := by rw [checkMixed_heap e1]
  simp only [el] at e2
  have f2 := insertKeyval_frame e2
  have k2 : st2.keychain = st.keychain := f2.keychain.trans k1
  rw [e1]
  dsimp only
  rw [e2]
  dsimp only
  rw [k2, List.getLast?_eq_some_getLast hne]
  exact ⟨_, rfl⟩

theorem keyvalAct_total {T : List Str} {st : PState} (k : Str) (h : Ctx T st) (hi : Inv st) (ht : Top st) (hk : PathWf st.keychain) (hne : st.keychain ≠ []) :
    ∃ st', keyvalAct k (st.heap.length - 1) st = .ok st' := by
  obtain ⟨st1, e1⟩ := insertKeyval_total h hi ht hk hne
  have he : ¬ st.arrayError = true := by rw [h.2.1]; simp
  simp only [keyvalAct, if_neg he, e1, Out.bind_eq, Out.bind]
  exact ⟨_, rfl⟩

theorem PathWf.push {kc : List Key} {k : Str} (h : PathWf kc) (hk : KeyWf k) : PathWf (kc ++ [.str k]) := by
  by_cases hn : kc = []
  · subst hn; exact ⟨hk, by simp⟩
  · exact h.append hn (by simp; exact hk)

mutual
theorem VT.eff_total : ∀ (t : VT) {T : List Str} {st : PState}, Ctx T st → Inv st → PathWf st.keychain → st.keychain ≠ [] → t.wf → ∃ st', t.eff st = .ok st'
  | .leaf s, T, st, hc, hi, hk, hne, hw => by
    obtain ⟨st1, e⟩ := s.eff_total hc hk hne
    rw [VT.eff, e]
    exact ⟨_, rfl⟩
  | .arr es c1 c2, T, st, hc, hi, hk, hne, hw => by
    rw [VT.wf] at hw
    obtain ⟨st1, e⟩ := Elems.eff_total es (st := st.openArr) (kc := st.keychain) (i := 0) (hc.congr rfl rfl rfl rfl) hi.openArr hk hne rfl hw.2.1
    rw [VT.eff, e]
    exact ⟨_, rfl⟩
  | .itab kvs ws, T, st, hc, hi, hk, hne, hw => by
    rw [VT.wf] at hw
    obtain ⟨st1, e⟩ := Pairs.eff_total kvs hc hi hk hw.2
    rw [VT.eff, e]
    exact ⟨_, rfl⟩
theorem Elems.eff_total : ∀ (t : Elems) {T : List Str} {st : PState} {kc : List Key} {i : Nat}, Ctx T st → Inv st → PathWf kc → kc ≠ [] →
    st.keychain = kc ++ [.idx i] → t.wf → ∃ st', t.eff st = .ok st'
  | .nil, T, st, kc, i, hc, hi, hk, hne, hkc, hw => ⟨st, by rw [Elems.eff]⟩
  | .cons v sep cn r, T, st, kc, i, hc, hi, hk, hne, hkc, hw => by
    have hpw : PathWf st.keychain := by rw [hkc]; exact hk.append hne (by simp)
    have hne' : st.keychain ≠ [] := by rw [hkc]; simp
    have hvw : v.wf := by rw [Elems.wf] at hw; exact hw.1
    have hrw : r.wf := by rw [Elems.wf] at hw; exact hw.2.2.2
    obtain ⟨st1, e1⟩ := VT.eff_total v hc hi hpw hne' hvw
    have all1 := v.eff_all hi
    rw [e1] at all1
    have f1 := VT.eff_frame e1
    have hc1 := hc.frame f1
    obtain ⟨st2, e2⟩ := arrayValueAct_total hc1 all1.1 all1.2 (by rw [f1.keychain]; exact hpw) (by rw [f1.keychain]; exact hne')
    have all2 := arrayValueAct_all all1.1 all1.2
    rw [e2] at all2
    obtain ⟨b0, _, _⟩ := arrayValueAct_val hc1 hk hne (f1.keychain.trans hkc) e2
    obtain ⟨st3, e3⟩ := Elems.eff_total r (hc1.frame' (arrayValueAct_frame e2)) all2 hk hne b0 hrw
    exact ⟨st3, by rw [Elems.eff, e1, Out.bind, e2, Out.bind, e3]⟩
theorem Pairs.eff_total : ∀ (t : Pairs) {T : List Str} {st : PState}, Ctx T st → Inv st → PathWf st.keychain → t.wf → ∃ st', t.eff st = .ok st'
  | .nil, T, st, hc, hi, hk, hw => ⟨st, by rw [Pairs.eff]⟩
  | .cons k ws v sep cn r, T, st, hc, hi, hk, hw => by
    rw [Pairs.wf] at hw
    have hcp : Ctx T (st.pushK k) := hc.congr rfl rfl rfl rfl
    have hpw : PathWf (st.pushK k).keychain := hk.push hw.1
    have hne' : (st.pushK k).keychain ≠ [] := by simp [PState.pushK]
    obtain ⟨st1, e1⟩ := VT.eff_total v hcp (hi.pushK k) hpw hne' hw.2.2.1
    have all1 := v.eff_all (hi.pushK k)
    rw [e1] at all1
    have f1 := VT.eff_frame e1
    have hc1 := hcp.frame f1
    obtain ⟨st2, e2⟩ := keyvalAct_total k hc1 all1.1 all1.2 (by rw [f1.keychain]; exact hpw) (by rw [f1.keychain]; exact hne')
    have all2 := keyvalAct_all (k := k) all1.1 all1.2
    rw [e2] at all2
    obtain ⟨b0, b1⟩ := keyvalAct_frame e2
    have hk2 : st2.keychain = st.keychain := by rw [b0, f1.keychain]; simp [PState.pushK]
    obtain ⟨st3, e3⟩ := Pairs.eff_total r (hc1.congr b1.lastTable b1.tables b1.index b1.err) all2 (by rw [hk2]; exact hk) hw.2.2.2.2.2
    exact ⟨st3, by rw [Pairs.eff, e1, Out.bind, e2, Out.bind, e3]⟩
end

theorem PV.eff_total : ∀ (t : PV) {T : List Str} {st : PState}, Ctx T st → Inv st → PathWf st.keychain → st.keychain ≠ [] → t.wf → ∃ st', t.eff st = .ok st'
  | .nothing, T, st, hc, hi, hk, hne, hw => ⟨st, rfl⟩
  | .val t, T, st, hc, hi, hk, hne, hw => t.eff_total hc hi hk hne hw
  | .arr c1 es last, T, st, hc, hi, hk, hne, hw => by
    obtain ⟨st1, e1⟩ := es.eff_total (st := st.openArr) (kc := st.keychain) (i := 0) (hc.congr rfl rfl rfl rfl) hi.openArr hk hne rfl hw.2.1
    have a1 := es.eff_all hi.openArr
    rw [e1] at a1
    have f1 := Elems.eff_frame e1
    have hkeep : ∀ (es : Elems) {st st1 : PState} {kc : List Key} {i : Nat} (_ : Ctx T st) (_ : st.keychain = kc ++ [.idx i]) (_ : es.wf) (_ : PathWf kc) (_ : kc ≠ [])
        (_ : es.eff st = .ok st1), ∃ j, st1.keychain = kc ++ [.idx j] := by
      intro es
      induction es using Elems.rec (motive_1 := fun _ => True) (motive_3 := fun _ => True) with
      | leaf => trivial
      | arr => trivial
      | itab => trivial
      | nil => intro st st1 kc i _ h0 _ _ _ h1; rw [Elems.eff] at h1; simp at h1; subst h1; exact ⟨i, h0⟩
      | cons v sep cn r _ ih =>
        intro st st1 kc i hc h0 hw hk hne h1
        rw [Elems.eff, Out.bind_ok] at h1
        obtain ⟨s1, h2, h1⟩ := h1
        rw [Out.bind_ok] at h1
        obtain ⟨s2, h3, h1⟩ := h1
        have f1 := VT.eff_frame h2
        have hc1 := hc.frame f1
        obtain ⟨b0, _, _⟩ := arrayValueAct_val hc1 hk hne (f1.keychain.trans h0) h3
        exact ih (hc1.frame' (arrayValueAct_frame h3)) b0 (by rw [Elems.wf] at hw; exact hw.2.2.2) hk hne h1
      | _ => trivial
    have hc0 : Ctx T st.openArr := hc.congr rfl rfl rfl rfl
    obtain ⟨j, hj⟩ := hkeep es hc0 (kc := st.keychain) (i := 0) rfl hw.2.1 hk hne e1
    obtain ⟨st2, e2⟩ := PV.eff_total last (hc0.frame' f1) a1 (by rw [hj]; exact hk.append hne (by simp)) (by rw [hj]; simp) hw.2.2
    exact ⟨st2.closeArr, by rw [PV.eff, e1, Out.bind, e2, Out.bind]⟩
  | .itab w kvs, T, st, hc, hi, hk, hne, hw => kvs.eff_total hc hi hk hw.2
  | .itabK w kvs k, T, st, hc, hi, hk, hne, hw => by
    obtain ⟨st1, e1⟩ := kvs.eff_total hc hi hk hw.2.1
    exact ⟨_, by rw [PV.eff, e1, Out.bind]⟩
  | .itabKV w kvs k ws last, T, st, hc, hi, hk, hne, hw => by
    obtain ⟨st1, e1⟩ := kvs.eff_total hc hi hk hw.2.1
    have a1 := kvs.eff_all hi
    rw [e1] at a1
    have f1 := Pairs.eff_frame e1
    have hc1 : Ctx T (st1.pushK k) := (hc.frame f1).congr rfl rfl rfl rfl
    have hk1 : (st1.pushK k).keychain = st.keychain ++ [.str k] := by show st1.keychain ++ _ = _; rw [f1.keychain]
    obtain ⟨st2, e2⟩ := PV.eff_total last hc1 (Inv.pushK a1 k) (by rw [hk1]; exact hk.push hw.2.2.1) (by rw [hk1]; simp) hw.2.2.2.2
    exact ⟨st2, by rw [PV.eff, e1, Out.bind, e2]⟩

end Tomllib
