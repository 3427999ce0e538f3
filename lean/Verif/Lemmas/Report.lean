import Verif.Lemmas.Answers
import Verif.Lemmas.Refuse
/-!
# The errors of a document with arrays of tables
-/

namespace Tomllib
namespace Sections

theorem Good.more {D : Sections} {K : List Key → Option HashValue} {h : Heap} (g : D.Good K h) (l : Heap) : D.Good K (h ++ l) :=
  ⟨fun p hp => (g.slot p hp).congr l rfl rfl rfl Iff.rfl rfl (fun _ => rfl) Iff.rfl, g.closed, g.wf, g.nwf, g.pos⟩

theorem keyvalAct_dup {p kc : List Key} {k : Str} {st : PState} {a b : Addr} {v : Value} {c : Children} (h : At p st) (hk : PathWf st.keychain)
    (hkc : st.keychain = kc ++ [.str k]) (hK : KP st.map (p ++ st.keychain) = some ⟨some b, c⟩) (hv : toVal st.heap a = .ok v) :
    keyvalAct k a st = .ok { st with errors := st.errors ++ [.duplicateKey (keyOf [] (p ++ st.keychain)) st.lineCount 0 v], keychain := kc } := by
  have hne : st.keychain ≠ [] := by rw [hkc]; simp
  have hik : insertKeys st = .ok (keyOf [] (p ++ st.keychain), parP (p ++ st.keychain.dropLast)) := h.2.2 st.map st.heap st.keychain (fun _ _ _ => rfl) hk hne
  have hg : st.map.get? (keyOf [] (p ++ st.keychain)) = some ⟨some b, c⟩ := by rw [← hK, KP, parP_ne (by simp [hne])]
  have he : ¬ st.arrayError = true := by rw [h.1]; simp
  simp only [keyvalAct, Out.bind_eq, if_neg he, insertKeyval, hik, Out.bind, hg, hv]
  rw [show st.keychain.dropLast = kc by rw [hkc]; simp]

/-- A key with a value, or a table with a header, is given a simple value. -/
theorem SimE.again {D : Sections} {st : PState} {E : List ParseError} (h : D.SimE E st) {w1 : Str} {k : Str} {s : WSSep} {x : Scalar} {w2 : Str} {c : Option Str} (hk : KeyWf k)
    (hn : D.valueAt (D.here ++ [.str k]) ≠ none ∨ D.here ++ [.str k] ∈ D.heads) :
    ∃ st', (ET.kv w1 k s (.leaf x) w2 c).eff st = .ok st' ∧ D.SimE ((VT.leaf x).report (D.here ++ [.str k]) st.lineCount E ++
      [.duplicateKey (keyOf [] (D.here ++ [.str k])) (st.lineCount + x.counted) 0 (VT.leaf x).value]) st' := by
  have hat := h.at
  have hw1 : PathWf (D.here ++ [.str k]) := hat.wf.push hk
  have hat1 : At D.here (st.pushK k) := hat.congr rfl rfl rfl rfl (fun _ _ _ => rfl)
  have hkc1 : (st.pushK k).keychain = [.str k] := by simp [PState.pushK, h.kc]
  have hpw : PathWf (st.pushK k).keychain := by rw [hkc1]; exact PathWf.push (kc := []) trivial hk
  have hne : (st.pushK k).keychain ≠ [] := by rw [hkc1]; simp
  obtain ⟨n, e1⟩ := Scalar.eff_report (s := x) (st := st.pushK k) (h.level.congr rfl rfl rfl) hat1 hpw hne
  have hnl : n = st.lineCount + x.counted := Scalar.eff_line e1
  have hK : ∃ a c, KP st.map (D.here ++ [.str k]) = some ⟨some a, c⟩ := by
    rcases hn with hx | hx
    · cases e : D.valueAt (D.here ++ [.str k]) with
      | none => exact absurd e hx
      | some t =>
        obtain ⟨a, fp, e1, _⟩ := (h.good.slot _ hw1).val t e
        exact ⟨a, _, e1⟩
    · obtain ⟨v, l, e1, _, e3, _⟩ := (h.good.slot _ hw1).tab (.inr (.inl hx))
      obtain ⟨a, rfl, _⟩ := e3 hx
      exact ⟨a, _, e1⟩
  obtain ⟨a, ch, hK⟩ := hK
  generalize hE1 : (VT.leaf x).report (D.here ++ [.str k]) st.lineCount E = E1
  have hE2 : (VT.leaf x).report (D.here ++ (st.pushK k).keychain) (st.pushK k).lineCount (st.pushK k).errors = E1 := by
    rw [← hE1, hkc1, ← h.errs]; rfl
  have e0 : x.eff (st.pushK k) = .ok { st.pushK k with lineCount := n, errors := E1 } := by rw [e1, hE2]
  have hat2 : At D.here (PState.cell { st.pushK k with lineCount := n, errors := E1 } x.cell) := hat.congr rfl rfl rfl rfl (fun _ _ _ => rfl)
  refine ⟨{ st with heap := st.heap ++ [x.cell], lineCount := n, errors := E1 ++ [.duplicateKey (keyOf [] (D.here ++ [.str k])) n 0 (VT.leaf x).value] }, ?_, ?_⟩
  · have hv : toVal (st.heap ++ [x.cell]) (st.heap ++ [x.cell]).length.pred = .ok (VT.leaf x).value := by
      refine VT.toVal_rep _ (.leaf x) _ [(st.heap ++ [x.cell]).length.pred] _ ⟨?_, rfl⟩ ?_
      · simp
      · simp [VT.depth]
    have := keyvalAct_dup (kc := []) (k := k) hat2 hpw hkc1 (by show KP st.map (D.here ++ (st.pushK k).keychain) = _; rw [hkc1]; exact hK) hv
    rw [ET.eff, VT.eff, e0, Out.bind, Out.bind]
    refine this.trans ?_
    have hk2 : (PState.cell { st.pushK k with lineCount := n, errors := E1 } x.cell).keychain = [.str k] := hkc1
    rw [hk2]
    simp [PState.cell, PState.pushK, h.kc]
  · rw [hnl]
    obtain ⟨cts, cis, A, b, ho, ht, h'⟩ := h.stack
    exact ⟨h.kc, rfl, h.only, h.good.more _, h.down, h.hereT, h.hereS, cts, cis, A, b, ho, ⟨ht.top, ht.err⟩, h'⟩

/-- A header of a table that is not in order. -/
theorem SimE.bad {D : Sections} {st : PState} {E : List ParseError} (h : D.SimE E st) {w1 w2 : Str} {t : Table} {c : Option Str} (hw : (TableType.std t).wf)
    (hr : D.regular (.table w1 (.std t) w2 c)) (hf : ¬ D.fits (.table w1 (.std t) w2 c)) :
    ∃ st', stdTableAct t (st.pushKs (t.keys.map (·.key))) = .ok (st', .std t) ∧ st'.arrayError = true ∧
      ∃ lt, (D.spoil t.names).SimE (E ++ [.invalidTable (keyOf [] (D.badKey t.names)) st.lineCount 0 []]) { st' with arrayError := false, lastTable := lt } := by
  obtain ⟨r1, r2, r3, r4⟩ := hr
  obtain ⟨cts, cis, A, b, er, fk, pk, v, pk', e1, hO, e3, e4, e5, e6⟩ := h.std_check (w1 := w1) (w2 := w2) (c := c) hw r3 r4 r1 r2
  have her : er = true := by
    cases er with
    | false => exact absurd (e5 rfl) hf
    | true => rfl
  subst her
  have hlen : (st.pushKs (t.keys.map (·.key))).keychain.length = t.keys.length := by simp [PState.pushKs, h.kc]
  have g := h.good
  have hA : (cts.map (·.table.names)).getLastD [] = A := by
    by_cases hc : cts = []
    · rw [hc, hO.wf.2.2.2.mpr hc]; rfl
    · have hu := List.getLast?_eq_some_getLast hc
      obtain ⟨u, hu1, hu2, _⟩ := hO.last _ hu
      rw [List.getLastD_eq_getLast?, List.getLast?_map, hu, hu1, Option.map_some, ← hu2]
      rfl
  have hhere : (D.spoil t.names).here = b := by
    show D.path [] ((D.opened.filter fun P => P.isPrefixOf t.names).getLastD []) = b
    rw [e3, hA, (hO.path g).1]
  have hsame : Same D (D.spoil t.names) := ⟨rfl, rfl, rfl, rfl, fun _ => rfl⟩
  obtain ⟨k1, k2⟩ := hO.elem g
  refine ⟨{ st with lastArrayTables := cts, lastArrayTablesIndex := cis, errors := st.errors ++ [.invalidTable (keyOf [] (D.badKey t.names)) st.lineCount 0 []], arrayError := true }, ?_, rfl,
    if b = [] then none else some (.arr t), ?_⟩
  · unfold stdTableAct
    simp only [hlen, Nat.lt_irrefl, if_false, Nat.sub_self, List.take_zero]
    have h1 : (st.pushKs (t.keys.map (·.key))).lastArrayTables = st.lastArrayTables := rfl
    have h2 : (st.pushKs (t.keys.map (·.key))).lastArrayTablesIndex = st.lastArrayTablesIndex := rfl
    have h3 : (st.pushKs (t.keys.map (·.key))).map = st.map := rfl
    have h4 : (st.pushKs (t.keys.map (·.key))).heap = st.heap := rfl
    rw [h1, h2, e1, h3, h4]
    dsimp only
    simp only [e4, Out.bind_eq, Out.bind, if_true, e6]
    rw [← h.kc]
    rfl
  · refine ⟨h.kc, by rw [← h.errs], h.only, hsame.good g, fun Y => hsame.down (h.down Y), ?_, ?_, cts, cis, A, b, ?_, ⟨.inr ⟨rfl, rfl, hhere, fun hb => if_pos hb, fun hb => ⟨t, if_neg hb⟩⟩, rfl⟩, e3⟩
    · rw [hhere]; exact (hsame.isTable b).mpr k1
    · rw [hhere]; exact hsame.solid k2
    · exact hO.mono (fun _ he => he) (fun _ _ _ => rfl)

/-- A header does not depend on what the keys before belonged to. -/
theorem stdTableAct_lost {t : Table} {st st' : PState} {x : TableType} (h : stdTableAct t st = .ok (st', x)) (a : Bool) (l : Option TableType) :
    stdTableAct t { st with arrayError := a, lastTable := l } = .ok ({ st' with lastTable := if st'.arrayError then l else st'.lastTable }, x) := by
  unfold stdTableAct at h ⊢
  dsimp only at h ⊢
  split at h
  · simp at h
  next hlt =>
    rw [if_neg hlt]
    obtain ⟨⟨er, fk, pk⟩, h1, h⟩ := Out.bind_ok.mp h
    rw [h1]
    simp only [Out.bind_eq, Out.bind]
    cases er with
    | true =>
      simp only [if_true] at h ⊢
      obtain ⟨⟨v, k, p⟩, h2, h⟩ := Out.bind_ok.mp h
      rw [h2]
      simp at h ⊢
      rw [← h.1, ← h.2]
      simp
    | false =>
      simp only [Bool.false_eq_true, if_false] at h ⊢
      obtain ⟨m1, h2, h⟩ := Out.bind_ok.mp h
      obtain ⟨m2, h3, h⟩ := Out.bind_ok.mp h
      obtain ⟨m3, h4, h⟩ := Out.bind_ok.mp h
      rw [h2]
      simp only [h3, h4]
      simp at h ⊢
      rw [← h.1, ← h.2]
      simp

theorem arrayTableAct_lost {t : Table} {st st' : PState} {x : TableType} (h : arrayTableAct t st = .ok (st', x)) (he : st'.errors = st.errors) (a : Bool) (l : Option TableType) :
    arrayTableAct t { st with arrayError := a, lastTable := l } = .ok (st', x) := by
  unfold arrayTableAct at h ⊢
  dsimp only at h ⊢
  split at h
  · simp at h
  next hlt =>
    rw [if_neg hlt]
    obtain ⟨⟨m, ts, is⟩, h1, h⟩ := Out.bind_ok.mp h
    obtain ⟨⟨v, f, p⟩, h2, h⟩ := Out.bind_ok.mp h
    rw [h1]
    simp only [Out.bind_eq, Out.bind, h2]
    cases v with
    | false =>
      simp at h
      rw [← h.1] at he
      simp at he
    | true =>
      simp at h ⊢
      exact h

/-- What the parser knows is what has been read. -/
def RSim (R : Account) (st : PState) : Prop :=
  if R.lost then R.errors ≠ [] ∧ st.arrayError = true ∧ ∃ lt, R.doc.SimE R.errors { st with arrayError := false, lastTable := lt } else R.doc.SimE R.errors st

theorem RSim.new : RSim {} PState.new := Sim.new

theorem RSim.lines {R : Account} {st : PState} (h : RSim R st) (n : Nat) : RSim R (st.lines n) := by
  unfold RSim at h ⊢
  split at h
  · rw [if_pos (by assumption)]
    obtain ⟨h1, h2, lt, h3⟩ := h
    exact ⟨h1, h2, lt, h3.lines n⟩
  · rw [if_neg (by assumption)]
    exact SimE.lines h n

theorem VT.report_ne {v : VT} {P : List Key} {n : Nat} {es : List ParseError} (hv : v.simple = true) (h : es ≠ []) : v.report P n es ≠ [] := by
  cases v with
  | leaf x =>
    cases x <;> simp only [VT.report] <;> try exact h
    split
    · exact h
    · simp
  | arr _ _ _ => simp [VT.simple] at hv
  | itab _ _ => simp [VT.simple] at hv

theorem Account.keep_ne {k : Str} {v : Value} {es : List ParseError} (h : es ≠ []) : Account.keep k v es ≠ [] := by
  unfold Account.keep
  split
  · simp
  · exact h

theorem Scalar.eff_lost {x : Scalar} {st : PState} {n : Nat} {E : List ParseError} (h : x.eff st = .ok { st with lineCount := n, errors := E }) (a : Bool) (l : Option TableType) :
    x.eff { st with arrayError := a, lastTable := l } = .ok { st with arrayError := a, lastTable := l, lineCount := n, errors := E } := by
  cases x with
  | dt d =>
    rw [Scalar.eff] at h ⊢
    split at h
    next hd =>
      rw [if_pos hd]
      simp only [Out.ok.injEq] at h ⊢
      have h1 := congrArg PState.lineCount h
      have h2 := congrArg PState.errors h
      dsimp only at h1 h2
      rw [← h1, ← h2]
    next hd =>
      rw [if_neg hd]
      obtain ⟨⟨v, k, p⟩, h1, h⟩ := Out.bind_ok.mp h
      dsimp only
      rw [h1]
      simp only [Out.bind_eq, Out.bind, Out.ok.injEq] at h ⊢
      have h1 := congrArg PState.lineCount h
      have h2 := congrArg PState.errors h
      dsimp only at h1 h2
      rw [← h1, ← h2]
  | str y ty =>
    cases ty <;> (
      simp only [Scalar.eff, Out.ok.injEq] at h ⊢
      have h1 := congrArg PState.lineCount h
      have h2 := congrArg PState.errors h
      dsimp only [PState.lines] at h1 h2 ⊢
      rw [← h1, ← h2])
  | _ =>
    simp only [Scalar.eff, Out.ok.injEq] at h ⊢
    have h1 := congrArg PState.lineCount h
    have h2 := congrArg PState.errors h
    dsimp only at h1 h2
    rw [← h1, ← h2]

theorem keyvalAct_keep {st : PState} (ha : st.arrayError = true) (he : st.errors ≠ []) {k : Str} {a : Addr} {v : Value} (hv : toVal st.heap a = .ok v) :
    keyvalAct k a st = .ok { st with keychain := st.keychain.dropLast, errors := Account.keep k v st.errors } := by
  unfold keyvalAct Account.keep
  rw [if_pos ha, List.getLast?_eq_some_getLast he]
  cases st.errors.getLast he with
  | invalidTable key l c m =>
    simp only [hv, Out.bind_eq, Out.bind]
  | _ => simp [Out.bind_eq, Out.bind]

mutual
theorem VT.lose_ne : ∀ {v : VT} {P : List Key} {n : Nat} {es : List ParseError}, es ≠ [] → v.lose P n es ≠ []
  | .leaf x, P, n, es, h => by rw [VT.lose]; exact VT.report_ne rfl h
  | .arr _ _ _, P, n, es, h => by rw [VT.lose]; exact h
  | .itab kvs _, P, n, es, h => by rw [VT.lose]; exact Pairs.lose_ne h
theorem Pairs.lose_ne : ∀ {v : Pairs} {P : List Key} {n : Nat} {es : List ParseError}, es ≠ [] → v.lose P n es ≠ []
  | .nil, P, n, es, h => by rw [Pairs.lose]; exact h
  | .cons k _ v _ _ r, P, n, es, h => by rw [Pairs.lose]; exact Pairs.lose_ne (Account.keep_ne (VT.lose_ne h))
end

mutual
/-- A value without arrays below a header that was not in order. -/
theorem VT.eff_lose : ∀ (t : VT) {p : List Key} {lt : Option TableType} {st : PState}, t.arrayless = true → t.wf →
    Level { st with arrayError := false, lastTable := lt } → At p { st with arrayError := false, lastTable := lt } → st.arrayError = true → st.errors ≠ [] →
    PathWf st.keychain → st.keychain ≠ [] →
    t.eff st = .ok { st with heap := st.heap ++ t.cells st.heap.length, lineCount := st.lineCount + t.counted, errors := t.lose (p ++ st.keychain) st.lineCount st.errors }
  | .leaf x, p, lt, st, _, _, hl, hat, ha, he, hk, hne => by
    obtain ⟨n, e1⟩ := Scalar.eff_report (s := x) hl hat hk hne
    have e2 : x.eff st = .ok { st with lineCount := n, errors := (VT.leaf x).report (p ++ st.keychain) st.lineCount st.errors } := Scalar.eff_lost e1 st.arrayError st.lastTable
    have e3 : (VT.leaf x).eff st = .ok (PState.cell { st with lineCount := n, errors := (VT.leaf x).report (p ++ st.keychain) st.lineCount st.errors } x.cell) := by
      rw [VT.eff, e2, Out.bind]
    have hn : n = st.lineCount + (VT.leaf x).counted := VT.eff_line e3
    rw [e3, VT.lose, hn]
    rfl
  | .arr _ _ _, p, lt, st, h, _, _, _, _, _, _, _ => by simp [VT.arrayless] at h
  | .itab kvs ws, p, lt, st, h, hw, hl, hat, ha, he, hk, hne => by
    rw [VT.wf] at hw
    rw [VT.arrayless] at h
    rw [VT.eff, Pairs.eff_lose kvs h hw.2 hl hat ha he hk, Out.bind, VT.lose, VT.counted]
    simp [PState.cell, VT.cells]
theorem Pairs.eff_lose : ∀ (t : Pairs) {p : List Key} {lt : Option TableType} {st : PState}, t.arrayless = true → t.wf →
    Level { st with arrayError := false, lastTable := lt } → At p { st with arrayError := false, lastTable := lt } → st.arrayError = true → st.errors ≠ [] →
    PathWf st.keychain →
    t.eff st = .ok { st with heap := st.heap ++ t.cells st.heap.length, lineCount := st.lineCount + t.counted, errors := t.lose (p ++ st.keychain) st.lineCount st.errors }
  | .nil, p, lt, st, _, _, _, _, _, _, _ => by simp [Pairs.eff, Pairs.cells, Pairs.counted, Pairs.lose]
  | .cons k ws v sep cn r, p, lt, st, h, hw, hl, hat, ha, he, hk => by
    rw [Pairs.wf] at hw
    rw [Pairs.arrayless, Bool.and_eq_true] at h
    have hpw : PathWf (st.pushK k).keychain := hk.push hw.1
    have e1 := VT.eff_lose v (st := st.pushK k) h.1 hw.2.2.1 (hl.congr rfl rfl rfl) (hat.congr rfl rfl rfl rfl (fun _ _ _ => rfl)) ha he hpw (by simp [PState.pushK])
    have e2 := keyvalAct_keep (k := k) (st := { st.pushK k with
      heap := (st.pushK k).heap ++ v.cells (st.pushK k).heap.length, lineCount := (st.pushK k).lineCount + v.counted,
      errors := v.lose (p ++ (st.pushK k).keychain) (st.pushK k).lineCount (st.pushK k).errors }) ha (VT.lose_ne he) (VT.toVal_after e1)
    rw [Pairs.eff, e1, Out.bind, e2, Out.bind]
    have hkd : (st.pushK k).keychain.dropLast = st.keychain := by simp [PState.pushK]
    have e3 := Pairs.eff_lose r (p := p) (lt := lt) (st := { st.pushK k with
      heap := (st.pushK k).heap ++ v.cells (st.pushK k).heap.length, lineCount := (st.pushK k).lineCount + v.counted, keychain := (st.pushK k).keychain.dropLast,
      errors := Account.keep k v.value (v.lose (p ++ (st.pushK k).keychain) (st.pushK k).lineCount (st.pushK k).errors) }) h.2 hw.2.2.2.2.2 (hl.congr rfl rfl rfl)
      (hat.congr rfl rfl rfl rfl (fun _ _ _ => rfl)) ha (Account.keep_ne (VT.lose_ne he)) (by dsimp only; rw [hkd]; exact hk)
    rw [e3]
    dsimp only
    rw [hkd, Pairs.lose, Pairs.counted, Pairs.cells]
    simp only [PState.pushK, List.length_append, VT.cells_length, List.append_assoc, Nat.add_assoc]
end

/-- A pair below a header that was not in order. -/
theorem SimE.lostKv {D : Sections} {st : PState} {E : List ParseError} {lt : Option TableType} (h : D.SimE E { st with arrayError := false, lastTable := lt }) (ha : st.arrayError = true) (hE : E ≠ [])
    {w1 : Str} {k : Str} {s : WSSep} {v : VT} {w2 : Str} {c : Option Str} (hk : KeyWf k) (hv : v.wf) (hal : v.arrayless = true) :
    ∃ st', (ET.kv w1 k s v w2 c).eff st = .ok st' ∧ st'.arrayError = true ∧
      D.SimE (Account.keep k v.value (v.lose (D.here ++ [.str k]) st.lineCount E)) { st' with arrayError := false, lastTable := lt } := by
  have hat := h.at
  have hkc0 : st.keychain = [] := h.kc
  have herr : st.errors = E := h.errs
  have hkc1 : (st.pushK k).keychain = [.str k] := by simp [PState.pushK, hkc0]
  have hpw : PathWf (st.pushK k).keychain := by rw [hkc1]; exact PathWf.push (kc := []) trivial hk
  have hE' : st.errors ≠ [] := by rw [herr]; exact hE
  have e1 := VT.eff_lose v (p := D.here) (lt := lt) (st := st.pushK k) hal hv (h.level.congr rfl rfl rfl) (hat.congr rfl rfl rfl rfl (fun _ _ _ => rfl)) ha hE' hpw (by rw [hkc1]; simp)
  have e2 := keyvalAct_keep (k := k) (st := { st.pushK k with
    heap := (st.pushK k).heap ++ v.cells (st.pushK k).heap.length, lineCount := (st.pushK k).lineCount + v.counted,
    errors := v.lose (D.here ++ (st.pushK k).keychain) (st.pushK k).lineCount (st.pushK k).errors }) ha (VT.lose_ne hE') (VT.toVal_after e1)
  have e3 : (ET.kv w1 k s v w2 c).eff st = ((v.eff (st.pushK k)).bind fun st1 => keyvalAct k (st1.heap.length - 1) st1) := by rw [ET.eff]
  rw [e1, Out.bind] at e3
  refine ⟨_, e3.trans e2, ha, ?_⟩
  obtain ⟨cts, cis, A, b, ho, ht, h'⟩ := h.stack
  refine ⟨?_, ?_, h.only, h.good.more _, h.down, h.hereT, h.hereS, cts, cis, A, b, ho, ⟨ht.top, ht.err⟩, h'⟩
  · show (st.pushK k).keychain.dropLast = []
    rw [hkc1]; rfl
  · show Account.keep _ _ (v.lose (D.here ++ (st.pushK k).keychain) st.lineCount st.errors) = _
    rw [hkc1, herr]

/-- A line. -/
theorem RSim.next {R : Account} {st : PState} (h : RSim R st) {e : ET} (hw : e.wf) (hf : R.allows e) : ∃ st', e.eff st = .ok st' ∧ RSim (R.next st.lineCount e) st' := by
  obtain ⟨D, lost, E⟩ := R
  cases e with
  | blank w => exact ⟨st, rfl, h⟩
  | comment w c => exact ⟨st, rfl, h⟩
  | kv w1 k s v w2 c =>
    rw [ET.wf] at hw
    cases lost with
    | true =>
      obtain ⟨h1, h2, lt, h3⟩ := h
      obtain ⟨st', e1, e2, e3⟩ := SimE.lostKv (w1 := w1) (s := s) (v := v) (w2 := w2) (c := c) h3 h2 h1 hw.2.1 hw.2.2.2.1 hf
      exact ⟨st', e1, Account.keep_ne (VT.lose_ne h1), e2, lt, e3⟩
    | false =>
      have h : D.SimE E st := h
      by_cases ha : D.again k v = true
      · simp only [Account.next, Bool.false_eq_true, if_false, if_pos ha]
        rw [Sections.again, Bool.and_eq_true, Bool.or_eq_true, decide_eq_true_eq] at ha
        cases v with
        | leaf x =>
          exact h.again (w1 := w1) (s := s) (w2 := w2) (c := c) hw.2.1 (ha.2.imp (fun h1 h2 => by rw [h2] at h1; simp at h1) id)
        | arr _ _ _ => simp [VT.simple] at ha
        | itab _ _ => simp [VT.simple] at ha
      · simp only [Account.next, Bool.false_eq_true, if_false, if_neg ha]
        have hf : ((D.here, k) ∉ D.names ∧ v.distinct = true) ∨ D.again k v = true := hf
        obtain ⟨h1, h2⟩ := hf.resolve_right ha
        obtain ⟨st', g1, g2, _⟩ := h.kv (w1 := w1) (s := s) (w2 := w2) (c := c) hw.2.1 hw.2.2.2.1 h1 h2
        exact ⟨st', g1, g2⟩
  | table w1 t w2 c =>
    have hwt : t.wf := hw.2.1
    cases t with
    | arr t =>
      have hf : D.fits (.table w1 (.arr t) w2 c) := hf
      cases lost with
      | false => exact SimE.line (D := D) h hw hf
      | true =>
        obtain ⟨h1, h2, lt, h3⟩ := h
        obtain ⟨st', e1, e2⟩ := h3.line hw hf
        refine ⟨st', ?_, e2⟩
        rw [ET.eff, TableType.eff] at e1 ⊢
        obtain ⟨⟨s1, x⟩, e3, e4⟩ := Out.bind_ok.mp e1
        simp at e4
        subst e4
        have := arrayTableAct_lost e3 (by rw [e2.errs]; exact h3.errs.symm) st.arrayError st.lastTable
        have : arrayTableAct t (st.pushKs (t.keys.map (·.key))) = _ := this
        rw [this]; rfl
    | std t =>
      by_cases hfit : D.fits (.table w1 (.std t) w2 c)
      · simp only [Account.next, if_pos hfit]
        cases lost with
        | false => exact SimE.line (D := D) h hw hfit
        | true =>
          obtain ⟨h1, h2, lt, h3⟩ := h
          obtain ⟨st', e1, e2⟩ := h3.line hw hfit
          refine ⟨st', ?_, e2⟩
          rw [ET.eff, TableType.eff] at e1 ⊢
          obtain ⟨⟨s1, x⟩, e3, e4⟩ := Out.bind_ok.mp e1
          simp at e4
          subst e4
          have := stdTableAct_lost e3 st.arrayError st.lastTable
          have : stdTableAct t (st.pushKs (t.keys.map (·.key))) = _ := this
          have ha : s1.arrayError = false := e2.at.1
          rw [this, Out.bind, ha, if_neg (by simp), ← ha]
      · have hr : D.regular (.table w1 (.std t) w2 c) := Or.resolve_left hf hfit
        simp only [Account.next, if_neg hfit]
        cases lost with
        | false =>
          obtain ⟨st', e1, e2, lt, e3⟩ := SimE.bad (D := D) h hwt hr hfit
          exact ⟨st', by rw [ET.eff, TableType.eff, e1]; rfl, by simp, e2, lt, e3⟩
        | true =>
          obtain ⟨h1, h2, lt0, h3⟩ := h
          obtain ⟨st', e1, e2, lt, e3⟩ := h3.bad hwt hr hfit
          have := stdTableAct_lost e1 st.arrayError st.lastTable
          have : stdTableAct t (st.pushKs (t.keys.map (·.key))) = _ := this
          refine ⟨{ st' with lastTable := if st'.arrayError then st.lastTable else st'.lastTable }, ?_, by simp, e2, lt, e3⟩
          rw [ET.eff, TableType.eff, this, Out.bind]

theorem RSim.all : ∀ (ls : List (Str × ET)) {R : Account} {st : PState}, RSim R st → (∀ l ∈ ls, l.2.wf) → R.Allows st.lineCount ls →
    ∃ st' es, linesEff ls st = .ok (st', es) ∧ RSim (R.all st.lineCount ls) st'
  | [], R, st, h, _, _ => ⟨st, [], rfl, h⟩
  | (nl, e) :: ls, R, st, h, hw, hf => by
    obtain ⟨st1, e1, h1⟩ := (h.lines (nlCount nl)).next (hw (nl, e) (by simp)) hf.1
    have hl := ET.eff_line e1
    have hf2 := hf.2
    obtain ⟨st2, es, e2, h2⟩ := RSim.all ls h1 (fun l hl => hw l (by simp [hl])) (by rw [hl]; exact hf2)
    rw [hl] at h2
    exact ⟨st2, ⟨nl, e.expr st.heap.length⟩ :: es, by rw [linesEff, e1, Out.bind, e2]; rfl, h2⟩

theorem RSim.errs {R : Account} {st : PState} (h : RSim R st) : st.errors = R.errors := by
  unfold RSim at h
  split at h
  · obtain ⟨_, _, _, h⟩ := h
    exact h.errs
  · exact SimE.errs h

theorem RSim.answers {R : Account} {p : Parser} (h : RSim R p.st) (hi : Inv p.st) : R.doc.Answers p := by
  unfold RSim at h
  split at h
  · obtain ⟨_, _, _, h⟩ := h
    exact Good.answers h.good h.only hi
  · exact SimE.good h |>.answers (SimE.only h) hi

end Sections
end Tomllib
