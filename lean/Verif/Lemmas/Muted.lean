import Verif.Lemmas.Astray
/-!
# Pairs below a header that is not in order are no panic

What is inside of such a pair is read as if the table were open that is on the stacks. The elements of an array are entered, the pairs of an inline table are not.
-/

namespace Tomllib

/-- As if the header had been in order. -/
def PState.virt (st : PState) (lt : Option TableType) : PState := { st with arrayError := false, lastTable := lt }

/-- The pairs that follow are not entered; what is inside of them belongs to `p`. -/
structure Muted (lt : Option TableType) (p : List Key) (st : PState) : Prop where
  calm : Calm p (st.virt lt)
  err : st.arrayError = true
  ne : st.errors ≠ []
  none : st.lastTable = Option.none → lt = Option.none

theorem Muted.inv {lt : Option TableType} {p : List Key} {st : PState} (h : Muted lt p st) : Inv st :=
  have i := h.calm.inv
  ⟨i.rank, i.map, i.stack, fun _ => h.ne, i.cols, i.lines, i.line1⟩

theorem Inv.virt {st : PState} (i : Inv st) (lt : Option TableType) : Inv (st.virt lt) :=
  ⟨i.rank, i.map, i.stack, fun h => by simp [PState.virt] at h, i.cols, i.lines, i.line1⟩

theorem Muted.next {lt : Option TableType} {p : List Key} {st st' : PState} (h : Muted lt p st) (hi : Inv st') (h1 : st'.lastTable = st.lastTable)
    (h2 : st'.lastArrayTables = st.lastArrayTables) (h3 : st'.lastArrayTablesIndex = st.lastArrayTablesIndex) (h4 : st'.arrayError = st.arrayError)
    (h5 : ∀ r, r <+: p → r ≠ p → KP st'.map r = KP st.map r) (h6 : st'.errors ≠ []) : Muted lt p st' :=
  ⟨⟨hi.virt lt, h.calm.at'.congr rfl h2 h3 rfl h5, h.calm.level.congr rfl h2 h3⟩, h4.trans h.err, h6, fun e => h.none (h1 ▸ e)⟩

theorem Muted.insertKeys {lt : Option TableType} {p : List Key} {st : PState} (h : Muted lt p st) (hk : PathWf st.keychain) (hne : st.keychain.dropLast ≠ []) :
    Tomllib.insertKeys st = Tomllib.insertKeys (st.virt lt) := by
  have hne1 : st.keychain ≠ [] := fun e => hne (by rw [e]; rfl)
  have hv : Tomllib.insertKeys (st.virt lt) = .ok (keyOf [] (p ++ st.keychain), parP (p ++ st.keychain.dropLast)) :=
    h.calm.at'.2.2 st.map st.heap st.keychain (fun _ _ _ => rfl) hk hne1
  obtain ⟨v, P, e1, e2⟩ := h.calm.level.fullKey h.calm.at' hk hne1
  have e2 := e2 hne
  have hpar : parP (p ++ st.keychain.dropLast) = keyOf [] (p ++ st.keychain.dropLast) := parP_ne (by simp [hne])
  have e1 : getFullKey st.map st.heap st.lastArrayTables st.lastArrayTablesIndex st.keychain = .ok (v, keyOf [] (p ++ st.keychain), P) := e1
  have e2 : P = keyOf [] (p ++ st.keychain.dropLast) := e2
  cases hl : st.lastTable with
  | none =>
    have := h.none hl
    unfold Tomllib.insertKeys PState.virt
    rw [this, hl]
  | some t =>
    rw [hv, hpar]
    unfold Tomllib.insertKeys
    rw [hl]
    cases t with
    | std t => simp only [getFullKey_prefix _ _ _ _ _ _ (Nat.le_of_eq h.inv.stack.symm), e1, Out.bind_eq, Out.bind, e2]
    | arr t => simp only [e1, Out.bind_eq, Out.bind, e2]

theorem Muted.insertKeyval {lt : Option TableType} {p : List Key} {st : PState} (h : Muted lt p st) (hk : PathWf st.keychain) (hne : st.keychain.dropLast ≠ []) {a : Addr} {s' : PState}
    (hs : Tomllib.insertKeyval (st.virt lt) a = .ok s') : Tomllib.insertKeyval st a = .ok { s' with arrayError := st.arrayError, lastTable := st.lastTable } := by
  have hik := h.insertKeys hk hne
  simp only [Tomllib.insertKeyval, Out.bind_eq] at hs ⊢
  rw [hik]
  rw [Out.bind_ok] at hs
  obtain ⟨⟨full, parent⟩, e1, hs⟩ := hs
  rw [e1]
  simp only [Out.bind]
  have em : (st.virt lt).map = st.map := rfl
  have eh : (st.virt lt).heap = st.heap := rfl
  have ek : (st.virt lt).keychain = st.keychain := rfl
  simp only [em, eh, ek] at hs
  split at hs
  next x =>
    rw [Out.bind_ok] at hs
    obtain ⟨v, e2, hs⟩ := hs
    rw [e2]
    simp only [Out.ok.injEq] at hs
    subst hs
    rfl
  next r hx =>
    cases hlast : st.keychain.getLast? with
    | none => rw [hlast] at hs; simp at hs
    | some last =>
      rw [hlast] at hs
      simp only [Out.ok.injEq] at hs
      subst hs
      rfl

theorem Muted.arrayValueAct {lt : Option TableType} {p kc : List Key} {i : Nat} {st : PState} (h : Muted lt p st) (ht : Top st) (hk : PathWf kc) (hne : kc ≠ []) (hkc : st.keychain = kc ++ [.idx i])
    {a : Addr} {s' : PState} (hs : Tomllib.arrayValueAct a (st.virt lt) = .ok s') :
    Tomllib.arrayValueAct a st = .ok { s' with arrayError := st.arrayError, lastTable := st.lastTable } := by
  have hpw : PathWf st.keychain := by rw [hkc]; exact hk.append hne (by simp)
  simp only [Tomllib.arrayValueAct, Out.bind_eq, Out.bind_ok] at hs ⊢
  obtain ⟨v, e0, t, e1, s1, e2, s2, e3, hs⟩ := hs
  have hcm : ∃ E, s1 = { st.virt lt with errors := E } ∧ E ≠ [] ∧ checkMixed t st = .ok { st with errors := E } := by
    unfold checkMixed at e2 ⊢
    have em : (st.virt lt).lastArrayType = st.lastArrayType := rfl
    have ef : getFullKey (st.virt lt).map (st.virt lt).heap (st.virt lt).lastArrayTables (st.virt lt).lastArrayTablesIndex (st.virt lt).keychain =
      getFullKey st.map st.heap st.lastArrayTables st.lastArrayTablesIndex st.keychain := rfl
    have ee : (st.virt lt).errors = st.errors := rfl
    rw [em] at e2
    split at e2
    · simp only [Out.ok.injEq] at e2
      exact ⟨st.errors, e2.symm, h.ne, rfl⟩
    · split at e2
      next hc =>
        rw [if_pos hc]
        simp only [Out.ok.injEq] at e2
        exact ⟨st.errors, e2.symm, h.ne, rfl⟩
      next hc =>
        rw [if_neg hc]
        rw [ef] at e2
        cases hf : getFullKey st.map st.heap st.lastArrayTables st.lastArrayTablesIndex st.keychain with
        | panic x => rw [hf] at e2; simp at e2
        | fuel => rw [hf] at e2; simp at e2
        | ok y =>
          obtain ⟨y1, y2, y3⟩ := y
          rw [hf] at e2
          simp only [ee] at e2
          dsimp only
          have key : ∀ (b : Bool) (X : List ParseError), X ≠ [] → (if b then Out.ok { st.virt lt with errors := X } else Out.ok (st.virt lt)) = .ok s1 →
              ∃ E, s1 = { st.virt lt with errors := E } ∧ E ≠ [] ∧ (if b then Out.ok { st with errors := X } else Out.ok st) = .ok { st with errors := E } := by
            intro b X hX hb
            cases b with
            | true => simp only [if_true, Out.ok.injEq] at hb; exact ⟨X, hb.symm, hX, rfl⟩
            | false => simp only [Bool.false_eq_true, if_false, Out.ok.injEq] at hb; exact ⟨st.errors, hb.symm, h.ne, rfl⟩
          exact key _ _ (by simp) e2
  obtain ⟨E, rfl, hE, e2'⟩ := hcm
  have hall := checkMixed_all (t := t) h.inv ht
  rw [e2'] at hall
  have hiv : Inv { st with errors := E, lastArrayType := st.lastArrayType.dropLast ++ [t] } := Inv.congr hall.1 rfl rfl rfl rfl rfl rfl rfl
  have h2 : Muted lt p { st with errors := E, lastArrayType := st.lastArrayType.dropLast ++ [t] } :=
    ⟨⟨hiv.virt lt, h.calm.at'.congr rfl rfl rfl rfl fun _ _ _ => rfl, h.calm.level.congr rfl rfl rfl⟩, h.err, hE, h.none⟩
  have e3' := h2.insertKeyval (a := a) (s' := s2) hpw (by simp [hkc, hne]) e3
  refine ⟨v, e0, t, e1, _, e2', _, e3', ?_⟩
  dsimp only
  cases hlast : s2.keychain.getLast? with
  | none => rw [hlast] at hs; simp at hs
  | some last =>
    rw [hlast] at hs
    simp only [Out.ok.injEq] at hs
    subst hs
    rfl

/-- A pair of an inline table, or of the section. -/
theorem Muted.keyvalAct {lt : Option TableType} {p : List Key} {st : PState} (h : Muted lt p st) (ht : Top st) (k : Str) :
    ∃ st', Tomllib.keyvalAct k (st.heap.length - 1) st = .ok st' ∧ Muted lt p st' := by
  obtain ⟨v, hv⟩ := Top.toVal h.inv ht
  have hall := keyvalAct_all (k := k) h.inv ht
  have key : ∃ E, E ≠ [] ∧ Tomllib.keyvalAct k (st.heap.length - 1) st = .ok { st with errors := E, keychain := st.keychain.dropLast } := by
    unfold Tomllib.keyvalAct
    rw [if_pos h.err, List.getLast?_eq_some_getLast h.ne]
    cases st.errors.getLast h.ne with
    | invalidTable key l c m =>
      simp only [hv, Out.bind_eq, Out.bind]
      exact ⟨_, by simp, rfl⟩
    | _ =>
      simp only [Out.bind_eq, Out.bind]
      exact ⟨st.errors, h.ne, rfl⟩
  obtain ⟨E, hE, e⟩ := key
  rw [e] at hall
  exact ⟨_, e, h.next hall rfl rfl rfl rfl (fun _ _ _ => rfl) hE⟩

theorem Scalar.eff_muted {lt : Option TableType} {p : List Key} {st : PState} (s : Scalar) (h : Muted lt p st) (hk : PathWf st.keychain) (hne : st.keychain ≠ []) :
    ∃ st', s.eff st = .ok st' ∧ Muted lt p st' := by
  have hok : ∃ st', s.eff st = .ok st' := by
    unfold Scalar.eff
    split
    · split
      · exact ⟨_, rfl⟩
      · obtain ⟨v, P, e, _⟩ := h.calm.level.fullKey h.calm.at' hk hne
        have e : getFullKey st.map st.heap st.lastArrayTables st.lastArrayTablesIndex st.keychain = .ok (v, keyOf [] (p ++ st.keychain), P) := e
        rw [e]
        exact ⟨_, rfl⟩
    all_goals exact ⟨_, rfl⟩
  obtain ⟨st', e⟩ := hok
  have hall := s.eff_all h.inv
  rw [e] at hall
  have f := Scalar.eff_frame e
  exact ⟨st', e, h.next hall f.lastTable f.tables f.index f.err (fun r _ _ => by rw [(Scalar.eff_clean e).1]) fun he => h.ne ((Scalar.eff_adds e).clean he)⟩

mutual
theorem VT.eff_muted : ∀ (t : VT) {lt : Option TableType} {p : List Key} {st : PState}, Muted lt p st → PathWf st.keychain → st.keychain ≠ [] → t.wf →
    ∃ st', t.eff st = .ok st' ∧ Muted lt p st' ∧ st'.lastArrayType = st.lastArrayType
  | .leaf s, lt, p, st, h, hk, hne, hw => by
    obtain ⟨st1, e, h1⟩ := s.eff_muted h hk hne
    have e' : VT.eff (.leaf s) st = .ok (st1.cell s.cell) := by rw [VT.eff, e]; rfl
    have hall := VT.eff_all (.leaf s) h.inv
    rw [e'] at hall
    exact ⟨_, e', h1.next hall.1 rfl rfl rfl rfl (fun _ _ _ => rfl) h1.ne, (Scalar.eff_clean e).2.1⟩
  | .arr es c1 c2, lt, p, st, h, hk, hne, hw => by
    rw [VT.wf] at hw
    obtain ⟨st1, e, h1, ⟨x, hx⟩, _⟩ := Elems.eff_muted es (st := st.openArr) (kc := st.keychain) (i := 0) (p0 := .none) (L := st.lastArrayType)
      (h.next h.inv.openArr rfl rfl rfl rfl (fun _ _ _ => rfl) h.ne) hk hne rfl hw.2.1 rfl
    have e' : VT.eff (.arr es c1 c2) st = .ok (st1.closeArr.cell (.arr (es.avs st.heap.length) c1 c2)) := by rw [VT.eff, e]; rfl
    have hall := VT.eff_all (.arr es c1 c2) h.inv
    rw [e'] at hall
    refine ⟨_, e', h1.next hall.1 rfl rfl rfl rfl (fun _ _ _ => rfl) h1.ne, ?_⟩
    show st1.lastArrayType.dropLast = _
    rw [hx]; simp
  | .itab kvs ws, lt, p, st, h, hk, hne, hw => by
    rw [VT.wf] at hw
    obtain ⟨st1, e, h1, h2⟩ := Pairs.eff_muted kvs h hk hne hw.2
    have e' : VT.eff (.itab kvs ws) st = .ok (st1.cell (.itab (kvs.tkvs st.heap.length) ws)) := by rw [VT.eff, e]; rfl
    have hall := VT.eff_all (.itab kvs ws) h.inv
    rw [e'] at hall
    exact ⟨_, e', h1.next hall.1 rfl rfl rfl rfl (fun _ _ _ => rfl) h1.ne, h2⟩
theorem Elems.eff_muted : ∀ (t : Elems) {lt : Option TableType} {p : List Key} {st : PState} {kc : List Key} {i : Nat} {p0 : ArrayType} {L : List ArrayType}, Muted lt p st → PathWf kc → kc ≠ [] →
    st.keychain = kc ++ [.idx i] → t.wf → st.lastArrayType = L ++ [p0] → ∃ st', t.eff st = .ok st' ∧ Muted lt p st' ∧ (∃ x, st'.lastArrayType = L ++ [x]) ∧ ∃ j, st'.keychain = kc ++ [.idx j]
  | .nil, lt, p, st, kc, i, p0, L, h, hk, hne, hkc, hw, hl => ⟨st, by rw [Elems.eff], h, ⟨_, hl⟩, i, hkc⟩
  | .cons v sep cn r, lt, p, st, kc, i, p0, L, h, hk, hne, hkc, hw, hl => by
    rw [Elems.wf] at hw
    have hpw : PathWf st.keychain := by rw [hkc]; exact hk.append hne (by simp)
    have hne1 : st.keychain ≠ [] := by rw [hkc]; simp
    obtain ⟨st1, e1, h1, l1⟩ := VT.eff_muted v h hpw hne1 hw.1
    have all1 := v.eff_all h.inv
    rw [e1] at all1
    have k1 : st1.keychain = kc ++ [.idx i] := (VT.eff_frame e1).keychain.trans hkc
    have t1 : Top st1 := all1.2
    have t1' : Top (st1.virt lt) := ⟨t1.1, t1.2, t1.3⟩
    obtain ⟨s2, e2⟩ := arrayValueAct_calm h1.calm t1' hk hne k1 (l1.trans hl)
    obtain ⟨fp, hr⟩ := VT.rep_after e1
    obtain ⟨b1, b2, b3, b4, _⟩ := arrayValueAct_stays h1.calm.at' hk hne k1 (v := v) (fp := fp) hr (l1.trans hl) e2
    have e3 := h1.arrayValueAct t1 hk hne k1 e2
    have all2 := arrayValueAct_all all1.1 t1
    rw [show st1.heap.length - 1 = (st1.virt lt).heap.length - 1 from rfl, e3] at all2
    have f2 := arrayValueAct_frame e2
    have h2 : Muted lt p { s2 with arrayError := st1.arrayError, lastTable := st1.lastTable } :=
      h1.next all2 rfl f2.tables f2.index rfl b2.above fun he => h1.ne ((arrayValueAct_adds e2).clean he)
    obtain ⟨st3, e4, h3, h4⟩ := Elems.eff_muted r h2 hk hne b3 hw.2.2.2 b4
    exact ⟨st3, by rw [Elems.eff, e1, Out.bind, show st1.heap.length - 1 = (st1.virt lt).heap.length - 1 from rfl, e3, Out.bind, e4], h3, h4⟩
theorem Pairs.eff_muted : ∀ (t : Pairs) {lt : Option TableType} {p : List Key} {st : PState}, Muted lt p st → PathWf st.keychain → st.keychain ≠ [] → t.wf →
    ∃ st', t.eff st = .ok st' ∧ Muted lt p st' ∧ st'.lastArrayType = st.lastArrayType
  | .nil, lt, p, st, h, hk, hne, hw => ⟨st, by rw [Pairs.eff], h, rfl⟩
  | .cons k ws v sep cn r, lt, p, st, h, hk, hne, hw => by
    rw [Pairs.wf] at hw
    have hp : Muted lt p (st.pushK k) := h.next (h.inv.pushK k) rfl rfl rfl rfl (fun _ _ _ => rfl) h.ne
    have hkc : (st.pushK k).keychain = st.keychain ++ [.str k] := rfl
    have hpw : PathWf (st.pushK k).keychain := by rw [hkc]; exact hk.push hw.1
    have hne1 : (st.pushK k).keychain ≠ [] := by rw [hkc]; simp
    obtain ⟨st1, e1, h1, l1⟩ := VT.eff_muted v hp hpw hne1 hw.2.2.1
    have all1 := v.eff_all hp.inv
    rw [e1] at all1
    obtain ⟨st2, e2, h2⟩ := h1.keyvalAct all1.2 k
    have k2 : st2.keychain = st.keychain := by
      rw [(keyvalAct_frame e2).1, (VT.eff_frame e1).keychain, hkc]; simp
    obtain ⟨st3, e3, h3, l3⟩ := Pairs.eff_muted r h2 (by rw [k2]; exact hk) (by rw [k2]; exact hne) hw.2.2.2.2.2
    exact ⟨st3, by rw [Pairs.eff, e1, Out.bind, e2, Out.bind, e3], h3, l3.trans ((keyvalAct_lat e2).trans l1)⟩
end

theorem PV.eff_muted : ∀ (t : PV) {lt : Option TableType} {p : List Key} {st : PState}, Muted lt p st → PathWf st.keychain → st.keychain ≠ [] → t.wf → ∃ st', t.eff st = .ok st'
  | .nothing, lt, p, st, h, hk, hne, hw => ⟨st, rfl⟩
  | .val t, lt, p, st, h, hk, hne, hw => by
    obtain ⟨st1, e, _⟩ := t.eff_muted h hk hne hw
    exact ⟨st1, e⟩
  | .arr c1 es last, lt, p, st, h, hk, hne, hw => by
    obtain ⟨st1, e, h1, _, j, hj⟩ := Elems.eff_muted es (st := st.openArr) (kc := st.keychain) (i := 0) (p0 := .none) (L := st.lastArrayType)
      (h.next h.inv.openArr rfl rfl rfl rfl (fun _ _ _ => rfl) h.ne) hk hne rfl hw.2.1 rfl
    obtain ⟨st2, e2⟩ := PV.eff_muted last h1 (by rw [hj]; exact hk.append hne (by simp)) (by rw [hj]; simp) hw.2.2
    exact ⟨st2.closeArr, by rw [PV.eff, e, Out.bind, e2, Out.bind]⟩
  | .itab w kvs, lt, p, st, h, hk, hne, hw => by
    obtain ⟨st1, e, _⟩ := kvs.eff_muted h hk hne hw.2
    exact ⟨st1, e⟩
  | .itabK w kvs k, lt, p, st, h, hk, hne, hw => by
    obtain ⟨st1, e1, _⟩ := kvs.eff_muted h hk hne hw.2.1
    exact ⟨_, by rw [PV.eff, e1, Out.bind]⟩
  | .itabKV w kvs k ws last, lt, p, st, h, hk, hne, hw => by
    obtain ⟨st1, e1, h1, _⟩ := kvs.eff_muted h hk hne hw.2.1
    have k1 : st1.keychain = st.keychain := (Pairs.eff_frame e1).keychain
    have hp : Muted lt p (st1.pushK k) := h1.next (h1.inv.pushK k) rfl rfl rfl rfl (fun _ _ _ => rfl) h1.ne
    obtain ⟨st2, e2⟩ := PV.eff_muted last hp (by show PathWf (st1.keychain ++ [.str k]); rw [k1]; exact hk.push hw.2.2.1) (by simp [PState.pushK]) hw.2.2.2.2
    exact ⟨st2, by rw [PV.eff, e1, Out.bind, e2]⟩

/-- A pair below a header that is not in order. -/
theorem kv_muted {lt : Option TableType} {p : List Key} {st : PState} (h : Muted lt p st) (hkc : st.keychain = []) {w1 : Str} {k : Str} {s : WSSep} {v : VT} {w2 : Str} {c : Option Str} (hk : KeyWf k)
    (hv : v.wf) : ∃ st', (ET.kv w1 k s v w2 c).eff st = .ok st' := by
  have hp : Muted lt p (st.pushK k) := h.next (h.inv.pushK k) rfl rfl rfl rfl (fun _ _ _ => rfl) h.ne
  have hkc1 : (st.pushK k).keychain = [.str k] := by simp [PState.pushK, hkc]
  obtain ⟨st1, e1, h1, _⟩ := VT.eff_muted v hp (by rw [hkc1]; exact PathWf.push (kc := []) trivial hk) (by rw [hkc1]; simp) hv
  have all1 := v.eff_all hp.inv
  rw [e1] at all1
  obtain ⟨st2, e2, _⟩ := h1.keyvalAct all1.2 k
  exact ⟨st2, by rw [ET.eff, e1, Out.bind, e2]⟩

/-- Before the first header nothing is on the stacks. -/
def Rooted (st : PState) : Prop := st.lastTable = none → st.lastArrayTables = []

theorem stdTableAct_rooted {t : Table} {st : PState} (h : Rooted st) {x : PState × TableType} (hs : stdTableAct t st = .ok x) : Rooted x.1 := by
  unfold stdTableAct at hs
  dsimp only at hs
  split at hs
  · simp at hs
  · rw [Out.bind_eq, Out.bind_ok] at hs
    obtain ⟨⟨er, fk, pk⟩, e1, hs⟩ := hs
    dsimp only at hs
    cases er with
    | true =>
      simp only [if_true, Out.bind_eq, Out.bind_ok] at hs
      obtain ⟨⟨a, b, c⟩, e2, hs⟩ := hs
      simp only [Out.ok.injEq] at hs
      subst hs
      intro hn
      have := h hn
      dsimp only
      rw [this]
      simp [stdPop, isTopStd, equalKeyLength, sameTop, popLoop]
    | false =>
      simp only [Bool.false_eq_true, if_false, Out.bind_eq, Out.bind_ok] at hs
      obtain ⟨m1, e2, m2, e3, m3, e4, hs⟩ := hs
      simp only [Out.ok.injEq] at hs
      subst hs
      intro hn
      simp at hn

namespace Sections

theorem RSim.rooted {R : Account} {st st' : PState} (hr : Rooted st) {e : ET} (he : e.eff st = .ok st') (h : RSim (R.next st.lineCount e) st') : Rooted st' := by
  cases e with
  | blank w => simp [ET.eff] at he; subst he; exact hr
  | comment w c => simp [ET.eff] at he; subst he; exact hr
  | kv w1 k s v w2 c =>
    rw [ET.eff, Out.bind_ok] at he
    obtain ⟨s1, e1, e2⟩ := he
    have f1 := VT.eff_frame e1
    have f2 := (keyvalAct_frame e2).2
    intro hn
    rw [f2.lastTable] at hn
    have hn : s1.lastTable = none := hn
    rw [f1.lastTable] at hn
    rw [f2.tables]
    show s1.lastArrayTables = []
    rw [f1.tables]
    exact hr hn
  | table w1 t w2 c =>
    cases t with
    | std t =>
      rw [ET.eff, TableType.eff, Out.bind_ok] at he
      obtain ⟨x, e1, e2⟩ := he
      simp only [Out.ok.injEq] at e2
      subst e2
      exact stdTableAct_rooted (st := st.pushKs (t.keys.map (·.key))) hr e1
    | arr t => exact (SimE.level (D := _) (E := _) h).1

theorem RSim.all_rooted : ∀ (ls : List (Str × ET)) {R : Account} {st : PState}, RSim R st → Rooted st → (∀ l ∈ ls, l.2.wf) → R.Allows st.lineCount ls →
    ∀ {x}, linesEff ls st = .ok x → Rooted x.1
  | [], R, st, h, hr, _, _, x, hx => by simp [linesEff] at hx; subst hx; exact hr
  | (nl, e) :: ls, R, st, h, hr, hw, hf, x, hx => by
    obtain ⟨st1, e1, h1⟩ := (h.lines (nlCount nl)).next (hw (nl, e) (by simp)) hf.1
    have hl := ET.eff_line e1
    have hf2 := hf.2
    have hr1 : Rooted st1 := RSim.rooted (st := st.lines (nlCount nl)) hr e1 h1
    rw [linesEff, e1, Out.bind, Out.bind_ok] at hx
    obtain ⟨y, e2, hx⟩ := hx
    simp only [Out.ok.injEq] at hx
    subst hx
    exact RSim.all_rooted ls h1 hr1 (fun l hl => hw l (by simp [hl])) (by rw [hl]; exact hf2) (x := y) e2

/-- A pair is no panic. -/
theorem RSim.pair {R : Account} {st : PState} (h : RSim R st) (hr : Rooted st) (hi : Inv st) {w1 : Str} {k : Str} {s : WSSep} {v : VT} {w2 : Str} {c : Option Str} (hk : KeyWf k) (hv : v.wf) :
    ∃ st', (ET.kv w1 k s v w2 c).eff st = .ok st' := by
  unfold RSim at h
  split at h
  · obtain ⟨h1, h2, lt, h3⟩ := h
    cases hl : st.lastTable with
    | none =>
      have h0 := hr hl
      have hx0 : st.lastArrayTablesIndex = [] := by
        have := hi.stack
        rw [h0] at this
        exact List.length_eq_zero_iff.mp this.symm
      refine kv_muted (lt := none) (p := []) ⟨⟨hi.virt none, Stack.at (cts := []) (cis := []) (A := []) (b := []) (here := []) ⟨.nil, .inr ⟨h0, hx0, rfl, fun _ => rfl, fun e => absurd rfl e⟩, rfl⟩, fun _ => h0, ?_⟩, h2, fun e => h1 (h3.errs.symm.trans e), fun _ => rfl⟩ h3.kc hk hv
      · exact hi.stack.symm
    | some t =>
      exact kv_muted (lt := lt) ⟨⟨hi.virt lt, h3.at, h3.level⟩, h2, fun e => h1 (h3.errs.symm.trans e), fun e => by rw [hl] at e; simp at e⟩ h3.kc hk hv
  · exact kv_calm ⟨hi, SimE.at h, SimE.level h⟩ (SimE.kc h) hk hv

end Sections
end Tomllib
