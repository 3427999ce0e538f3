import Verif.Spec.Bad
import Verif.Lemmas.Fresh
/-!
# Lines below headers that are not in order
-/

namespace Tomllib

/-- The state without the marks of a bad header. -/
def PState.calm (st : PState) : PState := { st with arrayError := false, lastTable := none }

/-- The state below a bad header. -/
structure DocBad (E : AEnts) (es : List ParseError) (K : Str) (n : Nat) (m : SMap Value) (st : PState) : Prop where
  inv : Inv st
  err : st.arrayError = true
  errs : st.errors = es ++ [.invalidTable K n 0 m]
  doc : DocInv [] E st.calm

theorem DocInv.calm {T : List Str} {E : AEnts} {st : PState} (h : DocInv T E st) {es : List ParseError} {b : Bool}
    (hi : Inv { st with keychain := [], lastArrayTables := [], lastArrayTablesIndex := [], errors := es, arrayError := b }) :
    DocInv [] E { st with keychain := [], lastArrayTables := [], lastArrayTablesIndex := [], errors := es, arrayError := b }.calm := by
  refine ⟨⟨rfl, rfl, by simp [NamesWf], by simp [PState.calm]⟩, ⟨hi.rank, hi.map, hi.stack, by simp [PState.calm], hi.cols, hi.lines, hi.line1⟩, rfl, h.tab, h.root, ?_, h.root, h.vals, h.rep⟩
  intro a b ha e
  simp at e
  exact absurd e.1 ha

/-- A header that is not in order. -/
theorem DocInv.headerBad {T : List Str} {E : AEnts} {st : PState} (h : DocInv T E st) {t : Table} (hw : (TableType.std t).wf) (hbad : ¬ HeaderOk E.erase t.names) :
    TableType.eff (.std t) st = .ok { st with
      keychain := [], lastArrayTables := [], lastArrayTablesIndex := [], errors := st.errors ++ [.invalidTable (nkey t.names) st.lineCount 0 []], arrayError := true } := by
  have hne : t.names ≠ [] := by
    have : t.keys ≠ [] := hw.1
    simpa [Table.names] using this
  have hnw : NamesWf t.names := by
    intro k hk
    simp [Table.names] at hk
    obtain ⟨x, hx, rfl⟩ := hk
    exact (hw.2 x hx).2
  obtain ⟨b, c1, c2⟩ := stdCheck_spec h.tab hw hnw hne
  rw [h.headerGood hne] at c2
  have hpop := h.ctx.pop (.std t)
  have hlen : ¬ (st.pushKs t.names).keychain.length < t.keys.length := by
    simp [PState.pushKs, Table.names]
  have hkc : (st.pushKs t.names).keychain.take ((st.pushKs t.names).keychain.length - t.keys.length) = [] := by
    simp [PState.pushKs, h.kc, Table.names]
  have hb : b = true := by
    cases b with
    | true => rfl
    | false => exact absurd (c2.mp rfl) hbad
  subst hb
  obtain ⟨v, k1, _⟩ := getArrayTableKey_std st.map st.heap hw [] 0
  show (stdTableAct t (st.pushKs t.names)).bind _ = _
  have e1 : (st.pushKs t.names).map = st.map := rfl
  have e2 : (st.pushKs t.names).heap = st.heap := rfl
  have e3 : (st.pushKs t.names).lastArrayTables = st.lastArrayTables := rfl
  have e4 : (st.pushKs t.names).lastArrayTablesIndex = st.lastArrayTablesIndex := rfl
  simp only [stdTableAct, if_neg hlen, Out.bind_eq, hkc, e1, e2, e3, e4, hpop, c1, Out.bind, List.nil_append, k1]
  rfl

theorem DocInv.toBad {T : List Str} {E : AEnts} {st st' : PState} (h : DocInv T E st) {t : Table} (hw : (TableType.std t).wf) (hbad : ¬ HeaderOk E.erase t.names)
    (he : TableType.eff (.std t) st = .ok st') : DocBad E st.errors (nkey t.names) st.lineCount [] st' := by
  have e := h.headerBad hw hbad
  have hi := (TableType.std t).eff_all h.inv
  rw [e] at hi
  rw [e] at he
  simp at he; subst he
  exact ⟨hi, rfl, rfl, h.calm hi⟩

/-- What a header does depends on the marks of a bad header only as far as it leaves them. -/
theorem stdTableAct_calm (t : Table) (st : PState) : (stdTableAct t st).map' (·.1.calm) = (stdTableAct t st.calm).map' (·.1.calm) ∧
    (∀ st' r, stdTableAct t st.calm = .ok (st', r) → st'.arrayError = false → stdTableAct t st = .ok (st', r)) ∧
    (∀ st' r, stdTableAct t st.calm = .ok (st', r) → st'.arrayError = true → stdTableAct t st = .ok ({ st' with lastTable := st.lastTable }, r)) := by
  have e1 : st.calm.map = st.map := rfl
  have e2 : st.calm.heap = st.heap := rfl
  have e3 : st.calm.lastArrayTables = st.lastArrayTables := rfl
  have e4 : st.calm.lastArrayTablesIndex = st.lastArrayTablesIndex := rfl
  have e5 : st.calm.keychain = st.keychain := rfl
  simp only [stdTableAct, Out.bind_eq, e1, e2, e3, e4, e5]
  split
  · exact ⟨rfl, by simp, by simp⟩
  · cases hc : stdCheck st.map st.heap (.std t) (stdPop (.std t) st.lastArrayTables st.lastArrayTablesIndex).1 (stdPop (.std t) st.lastArrayTables st.lastArrayTablesIndex).2 with
    | panic x => exact ⟨rfl, by simp [Out.bind], by simp [Out.bind]⟩
    | fuel => exact ⟨rfl, by simp [Out.bind], by simp [Out.bind]⟩
    | ok x =>
      obtain ⟨b, k1, k2⟩ := x
      simp only [Out.bind]
      cases b with
      | true =>
        simp only [if_true]
        cases getArrayTableKey st.map st.heap ((stdPop (.std t) st.lastArrayTables st.lastArrayTablesIndex).1 ++ [.std t]) ((stdPop (.std t) st.lastArrayTables st.lastArrayTablesIndex).2 ++ [0]) with
        | panic x => exact ⟨rfl, by simp, by simp⟩
        | fuel => exact ⟨rfl, by simp, by simp⟩
        | ok y =>
          refine ⟨rfl, ?_, ?_⟩
          · rintro st' r h1 h2
            simp at h1
            rw [← h1.1] at h2
            simp at h2
          · rintro st' r h1 h2
            simp at h1
            obtain ⟨rfl, rfl⟩ := h1
            rfl
      | false =>
        simp only [Bool.false_eq_true, if_false]
        cases addImplicitTables st.map st.heap (stdPop (.std t) st.lastArrayTables st.lastArrayTablesIndex).1 (stdPop (.std t) st.lastArrayTables st.lastArrayTablesIndex).2 (.std t) with
        | panic x => exact ⟨rfl, by simp, by simp⟩
        | fuel => exact ⟨rfl, by simp, by simp⟩
        | ok m1 =>
          dsimp only
          cases addToTableSet m1 (stdPop (.std t) st.lastArrayTables st.lastArrayTablesIndex).1 (stdPop (.std t) st.lastArrayTables st.lastArrayTablesIndex).2 ((t.keys.map (·.key)).getLastD []) with
          | panic x => exact ⟨rfl, by simp, by simp⟩
          | fuel => exact ⟨rfl, by simp, by simp⟩
          | ok m2 =>
            dsimp only
            cases stdParent (stdEntry m2 st.heap.length k1) k2 ((t.keys.map (·.key)).getLastD []) with
            | panic x => exact ⟨rfl, by simp, by simp⟩
            | fuel => exact ⟨rfl, by simp, by simp⟩
            | ok m3 =>
              refine ⟨rfl, ?_, ?_⟩
              · rintro st' r h1 h2
                simp at h1
                obtain ⟨rfl, rfl⟩ := h1
                rfl
              · rintro st' r h1 h2
                simp at h1
                rw [← h1.1] at h2
                simp at h2

/-- A header after a bad one. -/
theorem DocInv.calmHeader {E : AEnts} {st : PState} (hinv : Inv st) (hdoc : DocInv [] E st.calm) {t : Table} (hw : (TableType.std t).wf) :
    (HeaderOk E.erase t.names → ∃ st', TableType.eff (.std t) st = .ok st' ∧ DocInv t.names (E ++ [(nkey t.names, st.heap.length, .header)]) st' ∧ st'.errors = st.errors) ∧
    (¬ HeaderOk E.erase t.names → ∃ st', TableType.eff (.std t) st = .ok st' ∧ DocBad E st.errors (nkey t.names) st.lineCount [] st') := by
  have hc := stdTableAct_calm t (st.pushKs t.names)
  have hpc : (st.pushKs t.names).calm = st.calm.pushKs t.names := rfl
  constructor
  · intro hok
    obtain ⟨st', g1, g2, _, g4⟩ := (hdoc.header hw).1 hok
    have g1' : (stdTableAct t (st.calm.pushKs t.names)).bind (fun x => .ok x.1) = .ok st' := g1
    rw [Out.bind_ok] at g1'
    obtain ⟨⟨s, r⟩, k1, k2⟩ := g1'
    simp at k2; subst k2
    have := hc.2.1 _ r (by rw [hpc]; exact k1) g2.ctx.2.1
    refine ⟨s, ?_, g2, g4⟩
    show (stdTableAct t (st.pushKs t.names)).bind (fun x => .ok x.1) = _
    rw [this]; rfl
  · intro hbad
    have g1 := hdoc.headerBad hw hbad
    have g1' : (stdTableAct t (st.calm.pushKs t.names)).bind (fun x => .ok x.1) = _ := g1
    rw [Out.bind_ok] at g1'
    obtain ⟨⟨s, r⟩, k1, k2⟩ := g1'
    simp only [Out.ok.injEq] at k2
    have hse : s.arrayError = true := by rw [k2]
    have := hc.2.2 _ r (by rw [hpc]; exact k1) hse
    have hE : TableType.eff (.std t) st = .ok { s with lastTable := (st.pushKs t.names).lastTable } := by
      show (stdTableAct t (st.pushKs t.names)).bind (fun x => .ok x.1) = _
      rw [this]; rfl
    have hi := (TableType.std t).eff_all hinv
    rw [hE] at hi
    refine ⟨_, hE, hi, hse, by rw [k2]; rfl, ?_⟩
    subst k2
    refine hdoc.calm (es := st.errors ++ [.invalidTable (nkey t.names) st.lineCount 0 []]) (b := true) ?_
    exact ⟨hi.rank, hi.map, hi.stack, hi.err, hi.cols, hi.lines, hi.line1⟩

theorem Scalar.eff_good {s : Scalar} (h : ∀ d, s = .dt d → d.real = true) (st : PState) : ∃ n, s.eff st = .ok (st.lines n) := by
  cases s with
  | dt d => exact ⟨0, by rw [Scalar.eff, ← DateTime.real_eq, if_pos (h d rfl)]; rfl⟩
  | str x ty =>
    cases ty with
    | mlBasic => exact ⟨_, rfl⟩
    | mlLiteral => exact ⟨_, rfl⟩
    | _ => exact ⟨0, rfl⟩
  | _ => exact ⟨0, rfl⟩

/-! ## All lines -/

/-- The errors added while lines are read, some below bad headers: `F` are the entries, `D` the dates that do not exist, `L` the bad headers. -/
def BadIss (errs errs' : List ParseError) (seen : List Str) (F : List (Str × Entry)) (D : List (Str × Str)) (L : List (Str × SMap Value)) : Prop :=
  ∃ l, errs' = errs ++ l ∧ l.filterMap ParseError.dup? = repeats seen F ∧ l.filterMap ParseError.date? = D ∧
    (∀ k ∈ l.filterMap ParseError.mixed?, ∃ e, (k, e) ∈ F ∧ isMixed e = true) ∧ l.filterMap ParseError.bad? = L

theorem BadIss.refl (errs : List ParseError) (seen : List Str) : BadIss errs errs seen [] [] [] :=
  ⟨[], by simp, by simp [repeats], by simp, by simp, by simp⟩

theorem BadIss.trans {a b c : List ParseError} {seen : List Str} {F G : List (Str × Entry)} {D D' : List (Str × Str)} {L M : List (Str × SMap Value)} (h : BadIss a b seen F D L)
    (h' : BadIss b c (seen ++ F.map (·.1)) G D' M) : BadIss a c seen (F ++ G) (D ++ D') (L ++ M) := by
  obtain ⟨l, h1, h2, h3, h4, h5⟩ := h
  obtain ⟨l', g1, g2, g3, g4, g5⟩ := h'
  refine ⟨l ++ l', by rw [g1, h1, List.append_assoc], ?_, ?_, ?_, ?_⟩
  · rw [List.filterMap_append, h2, g2, repeats_append]
  · rw [List.filterMap_append, h3, g3]
  · intro k hk
    rw [List.filterMap_append, List.mem_append] at hk
    rcases hk with hk | hk
    · obtain ⟨e, e1, e2⟩ := h4 k hk
      exact ⟨e, by simp [e1], e2⟩
    · obtain ⟨e, e1, e2⟩ := g4 k hk
      exact ⟨e, by simp [e1], e2⟩
  · rw [List.filterMap_append, h5, g5]

theorem DocIss.bad {a b : List ParseError} {seen : List Str} {F : List (Str × Entry)} (h : DocIss a b seen F) : BadIss a b seen F (F.filterMap badDate) [] := by
  obtain ⟨l, h1, h2, h3, h4, h5, _⟩ := h
  refine ⟨l, h1, h2, h3, h4, List.filterMap_eq_nil_iff.mpr fun e he => ?_⟩
  have := h5 e he
  cases e <;> simp [ParseError.table?, ParseError.bad?] at this ⊢

/-- The map and the cells are those of these entries. -/
def Holds (E : AEnts) (st : PState) : Prop := ∃ T s, DocInv T E s ∧ s.map = st.map ∧ s.heap = st.heap

end Tomllib
