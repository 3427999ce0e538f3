import Verif.Lemmas.Muted
import Verif.Lemmas.Grow
import Verif.Lemmas.Document
import Verif.Lemmas.Read
import Verif.Spec.Wall
import Verif.Spec.Entries
/-!
# Headers of tables in texts without arrays of tables: when they are a panic
-/

namespace Tomllib

/-- `Parser.blocked` for the map of keys. -/
def Blocked (m : KMap) : List Str → List Str → Prop
  | _, [] => False
  | P, n :: N => match kidsOf m (par P) with
    | some (.count _) => True
    | some (.keys l) => n ∈ l ∧ Blocked m (P ++ [n]) N
    | none => Blocked m (P ++ [n]) N

theorem Blocked.congr {m m' : KMap} : ∀ {N P : List Str}, (∀ a b, a ++ b = N → kidsOf m' (par (P ++ a)) = kidsOf m (par (P ++ a))) → (Blocked m' P N ↔ Blocked m P N)
  | [], _, _ => Iff.rfl
  | n :: N, P, h => by
    have h0 := h [] (n :: N) rfl
    rw [List.append_nil] at h0
    have ih := Blocked.congr (m := m) (m' := m') (N := N) (P := P ++ [n]) fun a b e => by
      have := h (n :: a) b (by rw [← e]; rfl)
      rwa [List.append_assoc]
    rw [Blocked, Blocked, h0]
    split
    · rfl
    · rw [ih]
    · exact ih

theorem kidsOf_none {m : KMap} {k : Str} (h : m.get? k = none) : kidsOf m k = none := by simp [kidsOf, h]
theorem kidsOf_some {m : KMap} {k : Str} {hv : HashValue} (h : m.get? k = some hv) : kidsOf m k = some hv.subkeys := by simp [kidsOf, h]

/-- Entering the tables on the way is a panic exactly if it is blocked. If not, the children of the last table are not counted. -/
theorem implicitLoop_iff : ∀ {N P : List Str} {m : KMap}, NamesWf (P ++ N) → N ≠ [] →
    (Blocked m P N ∧ ∃ x, implicitLoop N m (par P) false = .panic x) ∨
    (¬ Blocked m P N ∧ ∃ m', implicitLoop N m (par P) false = .ok m' ∧ ∀ c, kidsOf m' (par (P ++ N.dropLast)) ≠ some (.count c))
  | [], _, _, _, h => absurd rfl h
  | n :: N, P, m, hw, _ => by
    have hassoc : P ++ n :: N = P ++ [n] ++ N := by simp
    have hlk : (if par P ≠ root then par P ++ lit% "." ++ n else n) = par (P ++ [n]) := by
      rw [par_snoc, nkey_snoc]
      by_cases hP : P = []
      · subst hP
        rw [if_neg (by simp [par])]
        rfl
      · have hn : nkey P ≠ [] := keyOf_ne_nil hw.left.path (names_ne hP)
        rw [par_ne hP, if_pos (nkey_ne_root hw.left)]
        have := Key.add_eq (nkey P) (.str n)
        rw [if_pos hn] at this
        exact this.symm
    have hne : ∀ a, par P ≠ par (P ++ [n] ++ a) ∨ ¬ NamesWf (P ++ [n] ++ a) := by
      intro a
      by_cases h : NamesWf (P ++ [n] ++ a)
      · left
        intro e
        have := par_inj hw.left h e
        rw [List.append_assoc] at this
        have := congrArg List.length this
        simp at this
      · exact .inr h
    have hne' : ∀ a b, a ++ b = N → par P ≠ par (P ++ [n] ++ a) := fun a b e => (hne a).resolve_right fun h => h (by
      rw [hassoc, ← e, ← List.append_assoc] at hw
      exact hw.left)
    have hP : P ++ (n :: N).dropLast = if N = [] then P else P ++ [n] ++ N.dropLast := by
      cases N with
      | nil => simp
      | cons => simp [List.dropLast]
    have hlk' : N ≠ [] → ∀ (m1 : KMap) (ins f : Bool), (if N = [] then Out.ok m1 else
        implicitLoop N (if ins then m1.insert (if par P ≠ root then par P ++ lit% "." ++ n else n) ⟨none, .keys []⟩ else m1) (if par P ≠ root then par P ++ lit% "." ++ n else n) f) =
        implicitLoop N (if ins then m1.insert (par (P ++ [n])) ⟨none, .keys []⟩ else m1) (par (P ++ [n])) f := by
      intro hN m1 ins f
      rw [if_neg hN, hlk]
    rw [Blocked]
    rw [implicitLoop]
    cases hg : m.get? (par P) with
    | none =>
      rw [kidsOf_none hg]
      dsimp only
      by_cases hN : N = []
      · subst hN
        refine .inr ⟨id, m, rfl, ?_⟩
        simp only [List.dropLast_singleton, List.append_nil]
        rw [kidsOf_none hg]; simp
      · rw [hlk' hN, hP, if_neg hN]
        exact implicitLoop_iff (m := m) (by rw [← hassoc]; exact hw) hN
    | some hv =>
      obtain ⟨v, c⟩ := hv
      rw [kidsOf_some hg]
      cases c with
      | count c => exact .inl ⟨trivial, _, rfl⟩
      | keys l =>
        dsimp only
        have hk1 : ∀ a b, a ++ b = N → kidsOf (m.insert (par P) ⟨v, .keys (insertUniq l n).1⟩) (par (P ++ [n] ++ a)) = kidsOf m (par (P ++ [n] ++ a)) := by
          intro a b e
          rw [kidsOf_insert, if_neg (hne' a b e)]
        by_cases hN : N = []
        · subst hN
          refine .inr ⟨fun h => h.2, _, rfl, ?_⟩
          simp only [List.dropLast_singleton, List.append_nil]
          rw [kidsOf_insert, if_pos rfl]; simp
        · rw [hlk' hN, hP, if_neg hN]
          by_cases hm : n ∈ l
          · have hi : (insertUniq l n).2 = false := by simp [insertUniq, hm]
            rw [hi]
            simp only [Bool.false_eq_true, if_false, hm, true_and]
            have := implicitLoop_iff (m := m.insert (par P) ⟨v, .keys (insertUniq l n).1⟩) (P := P ++ [n]) (by rw [← hassoc]; exact hw) hN
            rwa [Blocked.congr hk1] at this
          · have hi : (insertUniq l n).2 = true := by simp [insertUniq, hm]
            rw [hi]
            simp only [if_true, hm, false_and]
            rcases implicitLoop_iff (m := (m.insert (par P) ⟨v, .keys (insertUniq l n).1⟩).insert (par (P ++ [n])) ⟨none, .keys []⟩) (P := P ++ [n])
              (by rw [← hassoc]; exact hw) hN with ⟨h, _⟩ | ⟨_, h⟩
            · cases N with
              | nil => exact absurd rfl hN
              | cons n' N =>
                rw [Blocked, kidsOf_insert, if_pos rfl] at h
                simp at h
            · exact .inr ⟨id, h⟩

/-- `Parser.barred` for the map of keys and the values. -/
def Barred (m : KMap) (h : Heap) (N : List Str) : Prop :=
  Free m h N ∧ ((∃ x, keyHasChildrenWithValues m h (par N.dropLast) = .panic x) ∨
    (tableDefined m h (nkey N) = false ∧ keyHasChildrenWithValues m h (par N.dropLast) = .ok false ∧ Blocked m [] N))

theorem implicitLoop_first {m : KMap} {l : List Str} (hr : kidsOf m root = some (.keys l)) (N : List Str) : implicitLoop N m root true = implicitLoop N m root false := by
  cases N with
  | nil => rfl
  | cons n N =>
    rw [implicitLoop, implicitLoop]
    cases hg : m.get? root with
    | none => rw [kidsOf_none hg] at hr; simp at hr
    | some hv =>
      rw [kidsOf_some hg] at hr
      simp at hr
      obtain ⟨v, c⟩ := hv
      dsimp only at hr
      subst hr
      rfl

/-- A header of a table when no array of tables is open. -/
theorem stdTableAct_iff {t : Table} {st : PState} (hw : (TableType.std t).wf) (hk : t.keys.length ≤ st.keychain.length)
    (hpop : stdPop (.std t) st.lastArrayTables st.lastArrayTablesIndex = ([], [])) {l : List Str} (hr : kidsOf st.map root = some (.keys l)) :
    (Barred st.map st.heap t.names ∧ ∃ x, stdTableAct t st = .panic x) ∨
    (¬ Barred st.map st.heap t.names ∧ ∃ st', stdTableAct t st = .ok (st', .std t) ∧ st'.keychain = st.keychain.take (st.keychain.length - t.keys.length) ∧
      ((st'.arrayError = true ∧ st'.lastArrayTables = []) ∨
        (st'.arrayError = false ∧ st'.lastArrayTables = [.std t] ∧ st'.lastArrayTablesIndex = [0] ∧ st'.lastTable = some (.std t)))) := by
  have hne : t.names ≠ [] := by
    have : t.keys ≠ [] := hw.1
    simpa [Table.names] using this
  have hnw : NamesWf t.names := Table.namesWf hw.2
  have hdw : NamesWf t.names.dropLast := fun k hk => hnw k (List.dropLast_subset _ hk)
  obtain ⟨v, e1, e2⟩ := getArrayTableKey_std st.map st.heap hw [] 0
  have hst : sameTop (.std t) [] = false := rfl
  simp only [stdTableAct, if_neg (Nat.not_lt.mpr hk), hpop, stdCheck, hst, Out.bind_eq, List.nil_append, e1, Out.bind]
  cases v with
  | false =>
    refine .inr ⟨fun hb => ?_, ?_⟩
    · have := e2.mpr hb.1
      simp at this
    · exact ⟨_, rfl, rfl, .inl ⟨rfl, rfl⟩⟩
  | true =>
    have hfree := e2.mp rfl
    simp only [Bool.not_true, Bool.false_eq_true, if_false]
    cases hc : keyHasChildrenWithValues st.map st.heap (par t.names.dropLast) with
    | panic x => exact .inl ⟨⟨hfree, .inl ⟨x, hc⟩⟩, x, rfl⟩
    | fuel =>
      exfalso
      unfold keyHasChildrenWithValues at hc
      split at hc
      · simp at hc
      · split at hc
        · simp at hc
        · split at hc
          · split at hc <;> simp at hc
          · simp at hc
    | ok b =>
      by_cases hbad : (b || tableDefined st.map st.heap (nkey t.names)) = true
      · simp only [hbad, if_true]
        refine .inr ⟨?_, _, rfl, rfl, .inl ⟨rfl, rfl⟩⟩
        rintro ⟨_, ⟨x, hx⟩ | ⟨h1, h2, _⟩⟩
        · rw [hc] at hx; simp at hx
        · rw [hc] at h2; simp at h2; simp [h1, h2] at hbad
      · rw [Bool.not_eq_true] at hbad
        have hb : b = false ∧ tableDefined st.map st.heap (nkey t.names) = false := by simpa using hbad
        simp only [hbad, Bool.false_eq_true, if_false, addImplicitTables_nil, implicitLoop_first hr]
        rcases implicitLoop_iff (P := []) (N := t.names) (m := st.map) hnw hne with ⟨h1, x, hx⟩ | ⟨h1, m', hm, hkid⟩
        · rw [show par ([] : List Str) = root from rfl] at hx
          rw [hx]
          exact .inl ⟨⟨hfree, .inr ⟨hb.2, by rw [hc, hb.1], h1⟩⟩, x, rfl⟩
        · rw [show par ([] : List Str) = root from rfl] at hm
          rw [hm]
          dsimp only
          obtain ⟨m2, g1, _, _, g4⟩ := addToTableSet_nil m' ((t.keys.map (·.key)).getLastD [])
          rw [g1]
          dsimp only
          have hpne : par t.names.dropLast ≠ [] := by
            unfold par
            split
            · decide
            next hd => exact keyOf_ne_nil hdw.path (names_ne hd)
          have hpn : nkey t.names ≠ par t.names.dropLast := by
            rw [← par_ne hne]
            intro e
            have := congrArg List.length (par_inj hnw hdw e)
            rw [List.length_dropLast] at this
            have : t.names.length ≠ 0 := by simpa using hne
            omega
          have hkid' : ∀ c, kidsOf (stdEntry m2 st.heap.length (nkey t.names)) (par t.names.dropLast) ≠ some (.count c) := by
            intro c
            have h3 : kidsOf m2 (par t.names.dropLast) = kidsOf m' (par t.names.dropLast) := by simp only [kidsOf, g4 _ hpne]
            have h4 := hkid c
            rw [List.nil_append, ← h3] at h4
            unfold stdEntry
            split
            · rw [kidsOf_insert, if_neg hpn]; exact h4
            · rw [kidsOf_insert, if_neg hpn]; exact h4
          have : ∃ m3, stdParent (stdEntry m2 st.heap.length (nkey t.names)) (par t.names.dropLast) ((t.keys.map (·.key)).getLastD []) = .ok m3 := by
            unfold stdParent
            split
            · exact ⟨_, rfl⟩
            next hg => exact absurd (kidsOf_some hg) (hkid' _)
            · exact ⟨_, rfl⟩
          obtain ⟨m3, h3⟩ := this
          rw [h3]
          refine .inr ⟨?_, _, rfl, rfl, .inr ⟨rfl, rfl, rfl, rfl⟩⟩
          rintro ⟨_, ⟨x, hx⟩ | ⟨_, _, h5⟩⟩
          · rw [hc] at hx; simp at hx
          · exact h1 h5

/-! ## Documents -/

/-- Between two lines of a text without arrays of tables. -/
structure Flow (st : PState) : Prop where
  inv : Inv st
  kc : st.keychain = []
  top : ∃ l, kidsOf st.map root = some (.keys l)
  ctx : (st.arrayError = true ∧ st.lastArrayTables = []) ∨ ∃ here, Stack (KP st.map) st [] [] [] [] here

theorem Flow.new : Flow PState.new :=
  ⟨Inv.new, rfl, ⟨[], rfl⟩, .inr ⟨[], .nil, .inr ⟨rfl, rfl, rfl, fun _ => rfl, fun e => absurd rfl e⟩, rfl⟩⟩

theorem Flow.lines {st : PState} (h : Flow st) (n : Nat) : Flow (st.lines n) :=
  ⟨h.inv.linesN n, h.kc, h.top, h.ctx.imp id fun ⟨here, s⟩ => ⟨here, s.chain, s.top, s.err⟩⟩

theorem Flow.index {st : PState} (h : Flow st) (e : st.lastArrayTables = []) : st.lastArrayTablesIndex = [] := by
  have := h.inv.stack
  rw [e] at this
  exact List.length_eq_zero_iff.mp this.symm

theorem Flow.pop {st : PState} (h : Flow st) (t : TableType) : stdPop t st.lastArrayTables st.lastArrayTablesIndex = ([], []) := by
  have h0 : st.lastArrayTables = [] → stdPop t st.lastArrayTables st.lastArrayTablesIndex = ([], []) := by
    intro e
    rw [h.index e, e]
    simp [stdPop, isTopStd, equalKeyLength, sameTop, popLoop]
  rcases h.ctx with ⟨_, e⟩ | ⟨here, s⟩
  · exact h0 e
  · rcases s.top with ⟨t', ks, _, _, _, g1, g2, _⟩ | ⟨e, _⟩
    · rw [g1, g2]
      simp [stdPop, isTopStd, equalKeyLength, sameTop, popLoop]
    · exact h0 e

theorem Flow.flat {st : PState} (h : Flow st) : Flat st.lastArrayTables := by
  rcases h.ctx with ⟨_, e⟩ | ⟨here, s⟩
  · rw [e]; exact (fun x hx => by simp at hx)
  · rcases s.top with ⟨t', ks, _, _, _, g1, g2, _⟩ | ⟨e, _⟩
    · rw [g1]; exact fun x hx => by simp at hx
    · rw [e]; exact (fun x hx => by simp at hx)

/-- A line is a panic exactly if it is a header that is barred. -/
theorem Flow.next {st : PState} (h : Flow st) {e : ET} (hw : e.wf) (hp : e.plain) :
    ((∃ w1 t w2 c, e = .table w1 (.std t) w2 c ∧ Barred st.map st.heap t.names) ∧ ∃ x, e.eff st = .panic x) ∨
    ((¬ ∃ w1 t w2 c, e = .table w1 (.std t) w2 c ∧ Barred st.map st.heap t.names) ∧ ∃ st', e.eff st = .ok st' ∧ Flow st') := by
  have hall := e.eff_all h.inv
  have htop : ∀ st', e.eff st = .ok st' → ∃ l, kidsOf st'.map root = some (.keys l) := fun st' he => by
    obtain ⟨l, hl⟩ := h.top
    obtain ⟨l', h', _⟩ := ET.eff_top hw h.flat he l hl
    exact ⟨l', h'⟩
  cases e with
  | blank w => exact .inr ⟨by simp, st, rfl, h⟩
  | comment w c => exact .inr ⟨by simp, st, rfl, h⟩
  | kv w1 k s v w2 c =>
    refine .inr ⟨by simp, ?_⟩
    have : ∃ st', (ET.kv w1 k s v w2 c).eff st = .ok st' := by
      rcases h.ctx with ⟨g1, g2⟩ | ⟨here, g⟩
      · exact kv_muted (lt := none) (p := []) ⟨⟨h.inv.virt none, Stack.at (cts := []) (cis := []) (A := []) (b := []) (here := [])
          ⟨.nil, .inr ⟨g2, h.index g2, rfl, fun _ => rfl, fun e => absurd rfl e⟩, rfl⟩, fun _ => g2, h.inv.stack.symm⟩, g1, h.inv.err g1, fun _ => rfl⟩ h.kc hw.2.1 hw.2.2.2.1
      · refine kv_calm ⟨h.inv, g.at, ?_, h.inv.stack.symm⟩ h.kc hw.2.1 hw.2.2.2.1
        intro hn
        rcases g.top with ⟨_, _, _, _, _, _, _, g3, _⟩ | ⟨e, _⟩
        · rw [hn] at g3; simp at g3
        · exact e
    obtain ⟨st', he⟩ := this
    refine ⟨st', he, ?_⟩
    have ht := htop st' he
    rw [he] at hall
    rw [ET.eff, Out.bind_ok] at he
    obtain ⟨s1, e1, e2⟩ := he
    have f1 := VT.eff_frame e1
    have f2 := keyvalAct_frame e2
    have k1 : st'.keychain = [] := by
      rw [f2.1, f1.keychain]
      simp [PState.pushK, h.kc]
    have i1 : st'.lastTable = st.lastTable := f2.2.lastTable.trans f1.lastTable
    have i2 : st'.lastArrayTables = st.lastArrayTables := f2.2.tables.trans f1.tables
    have i3 : st'.lastArrayTablesIndex = st.lastArrayTablesIndex := f2.2.index.trans f1.index
    have i4 : st'.arrayError = st.arrayError := f2.2.err.trans f1.err
    refine ⟨hall, k1, ht, ?_⟩
    rcases h.ctx with ⟨g1, g2⟩ | ⟨here, g⟩
    · exact .inl ⟨i4.trans g1, i2.trans g2⟩
    · exact .inr ⟨here, .nil, by rw [i1, i2, i3]; exact g.top, i4.trans g.err⟩
  | table w1 t w2 c =>
    cases t with
    | arr t => exact hp.elim
    | std t =>
      obtain ⟨l, hl⟩ := h.top
      have hkl : (st.pushKs (t.keys.map (·.key))).keychain.length = t.keys.length := by simp [PState.pushKs, h.kc]
      rcases stdTableAct_iff (st := st.pushKs (t.keys.map (·.key))) hw.2.1 (by rw [hkl]; exact Nat.le_refl _) (h.pop _) hl with ⟨hb, x, hx⟩ | ⟨hb, st', hx, hk, hc⟩
      · exact .inl ⟨⟨w1, t, w2, c, rfl, hb⟩, x, by rw [ET.eff, TableType.eff, hx]; rfl⟩
      · refine .inr ⟨?_, st', by rw [ET.eff, TableType.eff, hx]; rfl, ?_⟩
        · rintro ⟨_, _, _, _, e, hb'⟩
          simp at e
          rw [← e.2.1] at hb'
          exact hb hb'
        · have he : (ET.table w1 (.std t) w2 c).eff st = .ok st' := by rw [ET.eff, TableType.eff, hx]; rfl
          have ht := htop st' he
          rw [he] at hall
          refine ⟨hall, by rw [hk, hkl]; simp, ht, hc.imp id fun ⟨a1, a2, a3, a4⟩ => ⟨names t.names, .nil, .inl ⟨t, t.names, hw.2.1, rfl, ?_, a2, a3, a4, rfl⟩, a1⟩⟩
          have : t.keys ≠ [] := hw.2.1.1
          simpa [Table.names] using this

theorem Flow.ctx' {st : PState} (h : Flow st) : (st.arrayError = true ∧ st.lastArrayTables = []) ∨ ∃ T, Ctx T st := by
  refine h.ctx.imp id fun ⟨here, s⟩ => ?_
  rcases s.top with ⟨t, ks, hw, hn, hne, g1, g2, g3, _⟩ | ⟨g1, g2, _, g3, _⟩
  · have hne' : t.names ≠ [] := by rw [hn]; simpa using hne
    exact ⟨t.names, by rw [g1, g2]; rfl, s.err, Table.namesWf hw.2, by rw [if_neg hne']; exact ⟨t, hw, rfl, g3, g1⟩⟩
  · exact ⟨[], by rw [g1, g2]; rfl, s.err, fun k hk => by simp at hk, by rw [if_pos rfl]; exact ⟨g3 rfl, g1⟩⟩

/-- The beginning of a line is a panic only if it is a header that is barred. -/
theorem Flow.px {st : PState} (h : Flow st) {px : PX} (hw : px.wf) (hp : ∀ t, px ≠ .table (.arr t)) :
    (∃ t, px = .table (.std t) ∧ Barred st.map st.heap t.names) ∨ ∃ st', px.eff st = .ok st' := by
  cases px with
  | nothing => exact .inr ⟨_, rfl⟩
  | header => exact .inr ⟨_, rfl⟩
  | key => exact .inr ⟨_, rfl⟩
  | pair k s v =>
    have : (ET.kv [] k s v [] none).wf := ⟨by simp [Blank], hw.1, hw.2.1, hw.2.2, by simp [Blank], by simp [CommentWf]⟩
    rcases h.next this trivial with ⟨⟨_, _, _, _, e, _⟩, _⟩ | ⟨_, st', hx, _⟩
    · simp at e
    · exact .inr ⟨st', hx⟩
  | kv k s last =>
    right
    have hpw : PathWf (st.pushK k).keychain := by
      have hpk : (st.pushK k).keychain = [.str k] := by simp [PState.pushK, h.kc]
      rw [hpk]; exact ⟨hw.1, by simp⟩
    have hne : (st.pushK k).keychain ≠ [] := by simp [PState.pushK]
    rcases h.ctx' with ⟨g1, g2⟩ | ⟨T, g⟩
    · refine PV.eff_muted last (lt := none) (p := []) (Muted.next (st := st) ⟨⟨h.inv.virt none, Stack.at (cts := []) (cis := []) (A := []) (b := []) (here := [])
          ⟨.nil, .inr ⟨g2, h.index g2, rfl, fun _ => rfl, fun e => absurd rfl e⟩, rfl⟩, fun _ => g2, h.inv.stack.symm⟩, g1, h.inv.err g1, fun _ => rfl⟩
          (h.inv.pushK k) rfl rfl rfl rfl (fun _ _ _ => rfl) (h.inv.err g1)) hpw hne hw.2.2
    · exact last.eff_total (T := T) (g.congr rfl rfl rfl rfl) (h.inv.pushK k) hpw hne hw.2.2
  | table t =>
    cases t with
    | arr t => exact absurd rfl (hp t)
    | std t =>
      have hw' : (TableType.std t).wf := hw
      have : (ET.table [] (.std t) [] none).wf := ⟨by simp [Blank], hw', by simp [Blank], by simp [CommentWf]⟩
      rcases h.next this trivial with ⟨⟨_, _, _, _, e, hb⟩, _⟩ | ⟨_, st', hx, _⟩
      · simp at e
        rw [← e.2.1] at hb
        exact .inl ⟨t, rfl, hb⟩
      · exact .inr ⟨st', hx⟩

/-! ## What the parser answers -/

theorem Rep_not_table : ∀ {t : VT} {h : Heap} {a : Addr} {fp : List Addr}, t.Rep h a fp → h[a]? ≠ some .table
  | .leaf s, h, a, fp, r => by
    have := r.1
    rw [this]
    cases s <;> simp [Scalar.cell]
  | .arr es c1 c2, h, a, fp, r => by
    obtain ⟨_, _, h1, _⟩ := r
    rw [h1]; simp
  | .itab kvs ws, h, a, fp, r => by
    obtain ⟨_, _, h1, _⟩ := r
    rw [h1]; simp

theorem filled_iff {p : Parser} (hi : Inv p.st) (k : Str) : p.filled k ↔ keyHasValue p.st.map p.st.heap k = true := by
  rw [keyHasValue_eq, Parser.filled]
  rcases hi.getValue_cases k with ⟨h1, h2⟩ | ⟨a, h1, h2, h3⟩ | ⟨a, t, fp, h1, h2, h3⟩
  · simp [h1, h2]
  · simp [h1, h2, h3]
  · have : p.st.heap[a]? ≠ some .table := Rep_not_table h2
    simp [h1, h3, this]

theorem Free.filled {p : Parser} (hi : Inv p.st) (N : List Str) : (∀ a b, a ≠ [] → a ++ b = N → ¬ p.filled (tableKey a)) ↔ Free p.st.map p.st.heap N := by
  constructor
  · intro h a b ha e
    have := h a b ha e
    rw [filled_iff hi] at this
    rw [Bool.not_eq_true] at this
    exact this
  · intro h a b ha e
    rw [filled_iff hi]
    have := h a b ha e
    simp only [Bool.not_eq_true]
    exact this

theorem getChildren_par {p : Parser} {P : List Str} (hw : NamesWf P) : p.getChildren (tableKey P) = kidsOf p.st.map (par P) := by
  rw [getChildren_kids]
  by_cases h : P = []
  · subst h; rfl
  · have : tableKey P ≠ [] := keyOf_ne_nil hw.path (names_ne h)
    rw [par_ne h, if_neg this]
    rfl

theorem blocked_iff {p : Parser} : ∀ {N P : List Str}, NamesWf (P ++ N) → (p.blocked P N ↔ Blocked p.st.map P N)
  | [], _, _ => Iff.rfl
  | n :: N, P, hw => by
    rw [Parser.blocked, Blocked, getChildren_par hw.left]
    have ih := blocked_iff (p := p) (N := N) (P := P ++ [n]) (by rw [List.append_assoc]; exact hw)
    cases kidsOf p.st.map (par P) with
    | none => exact ih
    | some c =>
      cases c with
      | count c => exact Iff.rfl
      | keys l => dsimp only; rw [ih]

theorem barred_iff {p : Parser} (hi : Inv p.st) {N : List Str} (hw : NamesWf N) (hne : N ≠ []) : p.barred N ↔ Barred p.st.map p.st.heap N := by
  have hdw : NamesWf N.dropLast := fun k hk => hw k (List.dropLast_subset _ hk)
  rw [Parser.barred, Barred, Free.filled hi, blocked_iff (P := []) hw, getChildren_par hdw]
  refine and_congr_right fun hf => ?_
  have hdef : p.getValue (tableKey N) = .ok none ↔ tableDefined p.st.map p.st.heap (nkey N) = false := by
    have hnv : keyHasValue p.st.map p.st.heap (nkey N) = false := hf N [] hne (by simp)
    have hnv' : ¬ ∃ a, valOf p.st.map (nkey N) = some a ∧ p.st.heap[a]? ≠ some .table := by
      rw [← keyHasValue_eq]; simp [hnv]
    have htd : tableDefined p.st.map p.st.heap (nkey N) = true ↔ ∃ a, valOf p.st.map (nkey N) = some a ∧ p.st.heap[a]? = some .table := by
      unfold tableDefined
      split
      next a c hg => simp [valOf, hg]
      next hno =>
        simp only [Bool.false_eq_true, false_iff]
        rintro ⟨a, ha, _⟩
        cases hg : p.st.map.get? (nkey N) with
        | none => simp [valOf, hg] at ha
        | some hv =>
          obtain ⟨v, c⟩ := hv
          simp [valOf, hg] at ha
          subst ha
          exact hno a c hg
    rcases hi.getValue_cases (tableKey N) with ⟨h1, h2⟩ | ⟨a, h1, h2, h3⟩ | ⟨a, t, fp, h1, h2, h3⟩
    · rw [← Bool.not_eq_true, htd, h2]
      have h1 : valOf p.st.map (nkey N) = none := h1
      simp [h1]
    · rw [← Bool.not_eq_true, htd, h3]
      have h1 : valOf p.st.map (nkey N) = some a := h1
      simp [h1, h2]
    · exfalso
      exact hnv' ⟨a, h1, Rep_not_table h2⟩
  rw [hdef]
  by_cases hd : N.dropLast = []
  · rw [hd]
    simp [keyHasChildrenWithValues, par]
  · have hkc : keyHasChildrenWithValues p.st.map p.st.heap (par N.dropLast) = match kidsOf p.st.map (par N.dropLast) with
        | none => .ok false
        | some (.count c) => if c > 0 then .panic .stdTableIndexed else .ok false
        | some (.keys ks) => .ok (ks.any fun k => keyHasValue p.st.map p.st.heap (par N.dropLast ++ lit% "." ++ k)) := by
      unfold keyHasChildrenWithValues
      rw [if_neg (by rw [par_ne hd]; exact nkey_ne_root hdw)]
      cases hg : p.st.map.get? (par N.dropLast) with
      | none => rw [kidsOf_none hg]
      | some hv =>
        rw [kidsOf_some hg]
        obtain ⟨v, c⟩ := hv
        cases c <;> rfl
    rw [hkc]
    have hpk : tableKey N.dropLast = par N.dropLast := by rw [par_ne hd]; rfl
    rw [hpk]
    cases hk : kidsOf p.st.map (par N.dropLast) with
    | none => simp
    | some c =>
      cases c with
      | count c =>
        cases c with
        | zero => simp
        | succ c => simp [hd]
      | keys l =>
        simp [hd, filled_iff hi]

end Tomllib
