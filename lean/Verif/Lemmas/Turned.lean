import Verif.Lemmas.Wall
import Verif.Lemmas.Census
import Verif.Spec.Bad
/-!
# Table headers that are refused, and the lines below them
-/

namespace Tomllib

/-- `Parser.refuses` for the map of keys and the values. -/
def Turned (m : KMap) (h : Heap) (N : List Str) : Prop :=
  ¬ Free m h N ∨ keyHasChildrenWithValues m h (par N.dropLast) = .ok true ∨ tableDefined m h (nkey N) = true

theorem refuses_iff {p : Parser} (hi : Inv p.st) {N : List Str} (hw : NamesWf N) (hne : N ≠ []) : p.refuses N ↔ Turned p.st.map p.st.heap N := by
  have hdw : NamesWf N.dropLast := fun k hk => hw k (List.dropLast_subset _ hk)
  have h1 : (∃ a b, a ≠ [] ∧ a ++ b = N ∧ p.filled (tableKey a)) ↔ ¬ Free p.st.map p.st.heap N := by
    rw [← Free.filled hi]
    constructor
    · rintro ⟨a, b, e1, e2, e3⟩ h
      exact h a b e1 e2 e3
    · intro h
      refine Classical.byContradiction fun hc => h fun a b e1 e2 e3 => hc ⟨a, b, e1, e2, e3⟩
  rw [Parser.refuses, Turned, h1]
  by_cases hf : Free p.st.map p.st.heap N
  · have hnv : keyHasValue p.st.map p.st.heap (nkey N) = false := hf N [] hne (by simp)
    have hnv' : ¬ ∃ a, valOf p.st.map (nkey N) = some a ∧ p.st.heap[a]? ≠ some .table := by
      rw [← keyHasValue_eq]; simp [hnv]
    have htd : tableDefined p.st.map p.st.heap (nkey N) = true ↔ ∃ a, valOf p.st.map (nkey N) = some a ∧ p.st.heap[a]? = some .table := by
      unfold tableDefined
      split
      next a c hg => simp [valOf, hg]
      next hno =>
        simp only [Bool.false_eq_true, false_iff]
        rintro ⟨a, ha, _⟩
        cases hg : p.st.map.get? (nkey N) with
        | none => simp [valOf, hg] at ha
        | some hv =>
          obtain ⟨v, c⟩ := hv
          simp [valOf, hg] at ha
          subst ha
          exact hno a c hg
    have hdef : p.getValue (tableKey N) ≠ .ok none ↔ tableDefined p.st.map p.st.heap (nkey N) = true := by
      rcases hi.getValue_cases (tableKey N) with ⟨h1, h2⟩ | ⟨a, h1, h2, h3⟩ | ⟨a, t, fp, h1, h2, h3⟩
      · have h1 : valOf p.st.map (nkey N) = none := h1
        rw [htd, h2]
        simp [h1]
      · have h1 : valOf p.st.map (nkey N) = some a := h1
        rw [htd, h3]
        simp [h1, h2]
      · exact absurd ⟨a, h1, Rep_not_table h2⟩ hnv'
    rw [hdef]
    refine or_congr_right (or_congr_left ?_)
    by_cases hd : N.dropLast = []
    · rw [hd]
      simp [keyHasChildrenWithValues, par]
    · have hpk : tableKey N.dropLast = par N.dropLast := by rw [par_ne hd]; rfl
      rw [getChildren_par hdw, hpk]
      unfold keyHasChildrenWithValues
      rw [if_neg (by rw [par_ne hd]; exact nkey_ne_root hdw)]
      cases hg : p.st.map.get? (par N.dropLast) with
      | none => rw [kidsOf_none hg]; simp
      | some hv =>
        rw [kidsOf_some hg]
        obtain ⟨v, c⟩ := hv
        cases c with
        | count c => by_cases hc : c > 0 <;> simp [hc]
        | keys l => simp [hd, filled_iff hi]
  · simp [hf]

theorem stdTableAct_turned {t : Table} {st : PState} (hw : (TableType.std t).wf) (hk : t.keys.length ≤ st.keychain.length)
    (hpop : stdPop (.std t) st.lastArrayTables st.lastArrayTablesIndex = ([], [])) :
    (Turned st.map st.heap t.names → ¬ Free st.map st.heap t.names ∨ (∃ b, keyHasChildrenWithValues st.map st.heap (par t.names.dropLast) = .ok b) →
      stdTableAct t st = .ok ({ st with keychain := st.keychain.take (st.keychain.length - t.keys.length), lastArrayTables := [], lastArrayTablesIndex := [], errors := st.errors ++ [.invalidTable (nkey t.names) st.lineCount 0 []], arrayError := true }, .std t)) ∧
    (¬ Turned st.map st.heap t.names → ∀ x, stdTableAct t st = .ok x → x.1.errors = st.errors ∧ x.1.arrayError = false) := by
  obtain ⟨v, e1, e2⟩ := getArrayTableKey_std st.map st.heap hw [] 0
  have hst : sameTop (.std t) [] = false := rfl
  simp only [stdTableAct, if_neg (Nat.not_lt.mpr hk), hpop, stdCheck, hst, Out.bind_eq, List.nil_append, e1, Out.bind]
  cases v with
  | false =>
    have hf : ¬ Free st.map st.heap t.names := fun h => by have := e2.mpr h; simp at this
    exact ⟨fun _ _ => by simp [Out.bind], fun h => absurd (.inl hf) h⟩
  | true =>
    have hf := e2.mp rfl
    simp only [Bool.not_true, Bool.false_eq_true, if_false]
    constructor
    · rintro ht (h | ⟨b, hb⟩)
      · exact absurd hf h
      · rw [hb]
        have : (b || tableDefined st.map st.heap (nkey t.names)) = true := by
          rcases ht with h | h | h
          · exact absurd hf h
          · rw [hb] at h; simp at h; simp [h]
          · simp [h]
        simp [this, Out.bind]
    · intro ht x hx
      cases hc : keyHasChildrenWithValues st.map st.heap (par t.names.dropLast) with
      | panic y => rw [hc] at hx; simp [Out.bind] at hx
      | fuel => rw [hc] at hx; simp [Out.bind] at hx
      | ok b =>
        have hbad : (b || tableDefined st.map st.heap (nkey t.names)) = false := by
          rw [Bool.eq_false_iff]
          intro h
          simp only [Bool.or_eq_true] at h
          rcases h with rfl | h
          · exact ht (.inr (.inl hc))
          · exact ht (.inr (.inr h))
        rw [hc] at hx
        simp only [hbad, Bool.false_eq_true, if_false] at hx
        split at hx
        · dsimp only at hx
          split at hx
          · dsimp only at hx
            split at hx
            · simp at hx; subst hx; exact ⟨rfl, rfl⟩
            · simp at hx
            · simp at hx
          · simp at hx
          · simp at hx
        · simp at hx
        · simp at hx

theorem Turned.kids {m : KMap} {h : Heap} {N : List Str} (hB : ¬ Barred m h N) : ¬ Free m h N ∨ ∃ b, keyHasChildrenWithValues m h (par N.dropLast) = .ok b := by
  by_cases hf : Free m h N
  · right
    cases hc : keyHasChildrenWithValues m h (par N.dropLast) with
    | ok b => exact ⟨b, rfl⟩
    | panic x => exact absurd ⟨hf, .inl ⟨x, hc⟩⟩ hB
    | fuel =>
      exfalso
      unfold keyHasChildrenWithValues at hc
      split at hc
      · simp at hc
      · split at hc
        · simp at hc
        · split at hc
          · split at hc <;> simp at hc
          · simp at hc
  · exact .inl hf

/-! ## The lines below -/

theorem Lost.kv {es : List ParseError} {K : Str} {n : Nat} {m : SMap Value} {D : List ParseError} {st : PState} (h : Lost es K n m D st) (hkc : st.keychain = [])
    {w1 k : Str} {s : WSSep} {v : VT} {w2 : Str} {c : Option Str} (ha : v.arrayless = true) (hk : KeyWf k) (hv : v.wf) :
    ∃ st' m' D', ET.eff (.kv w1 k s v w2 c) st = .ok st' ∧ Lost es K n m' D' st' ∧ st'.keychain = [] ∧ st'.map = st.map ∧ (∃ x, st'.heap = st.heap ++ x) ∧
      (m', decide (D' ≠ [])) = tell m (decide (D ≠ [])) (v.told ++ [some (k, v.value)]) ∧
      D'.filterMap ParseError.date? = D.filterMap ParseError.date? ++ (pairEntries [] k v).filterMap badDate := by
  have hpk : (st.pushK k).keychain = [.str k] := by simp [PState.pushK, hkc]
  have hpw : PathWf (st.pushK k).keychain := by rw [hpk]; exact ⟨hk, by simp⟩
  obtain ⟨st1, m1, D1, a1, a2, a3, a4, a5⟩ := v.eff_lost ha (h.pushK k) hpw (by rw [hpk]; simp) hv
  have all1 := v.eff_all (h.pushK k).inv
  rw [a1] at all1
  obtain ⟨rd, _⟩ := VT.eff_read (h.pushK k).inv a1
  obtain ⟨st2, b1, b2, b3, b4, b5, b6⟩ := a2.pair all1.2 (k := k) rd
  have hk2 : st2.keychain = [] := by rw [b5, (VT.eff_frame a1).keychain, hpk]; rfl
  refine ⟨st2, _, D1, by rw [ET.eff, a1, Out.bind, b1], b2, hk2, by rw [b3, a3]; rfl, ⟨_, by rw [b4, VT.eff_heap _ _ _ a1]; rfl⟩, ?_, ?_⟩
  · rw [tell_append, ← a4, tell, tell]
    simp
  · rw [a5, hpk]; rfl

theorem Lost.run : ∀ (ls : List (Str × ET)) {es : List ParseError} {K : Str} {n : Nat} {m : SMap Value} {D : List ParseError} {st : PState}, Lost es K n m D st → st.keychain = [] →
    (∀ l ∈ ls, l.2.wf) → (∀ l ∈ ls, l.2.bare) →
    ∃ st' ns m' D', linesEff ls st = .ok (st', ns) ∧ Lost es K n m' D' st' ∧ st'.keychain = [] ∧ st'.map = st.map ∧ (∃ x, st'.heap = st.heap ++ x) ∧
      (m', decide (D' ≠ [])) = tell m (decide (D ≠ [])) (sectionTold ls) ∧ D'.filterMap ParseError.date? = D.filterMap ParseError.date? ++ sectionDates ls
  | [], es, K, n, m, D, st, h, hk, _, _ => ⟨st, [], m, D, rfl, h, hk, rfl, ⟨[], by simp⟩, rfl, by simp [sectionDates]⟩
  | (nl, e) :: ls, es, K, n, m, D, st, h, hk, hw, hb => by
    have h0 : Lost es K n m D (st.lines (nlCount nl)) := h.congr (h.inv.linesN _) rfl rfl rfl rfl
    have hw' : ∀ l ∈ ls, l.2.wf := fun l hl => hw l (by simp [hl])
    have hb' : ∀ l ∈ ls, l.2.bare := fun l hl => hb l (by simp [hl])
    have he := hb (nl, e) (by simp)
    have hwe := hw (nl, e) (by simp)
    have h0k : (st.lines (nlCount nl)).keychain = [] := hk
    cases e with
    | blank w =>
      obtain ⟨st', ns, m', D', a1, a2, a3, a4, a5, a6, a7⟩ := Lost.run ls h0 h0k hw' hb'
      exact ⟨st', _, m', D', by rw [linesEff, ET.eff, Out.bind, a1]; rfl, a2, a3, a4, a5, a6, a7⟩
    | comment w c =>
      obtain ⟨st', ns, m', D', a1, a2, a3, a4, a5, a6, a7⟩ := Lost.run ls h0 h0k hw' hb'
      exact ⟨st', _, m', D', by rw [linesEff, ET.eff, Out.bind, a1]; rfl, a2, a3, a4, a5, a6, a7⟩
    | table => exact he.elim
    | kv w1 k s v w2 c =>
      obtain ⟨st1, m1, D1, b1, b2, b3, b4, ⟨x, b5⟩, b6, b7⟩ := h0.kv h0k (w1 := w1) (s := s) (w2 := w2) (c := c) (k := k) (v := v) he hwe.2.1 hwe.2.2.2.1
      obtain ⟨st', ns, m', D', a1, a2, a3, a4, ⟨y, a5⟩, a6, a7⟩ := Lost.run ls b2 b3 hw' hb'
      refine ⟨st', _, m', D', by rw [linesEff, b1, Out.bind, a1]; rfl, a2, a3, a4.trans b4, ⟨x ++ y, by rw [a5, b5, List.append_assoc]; rfl⟩, ?_, ?_⟩
      · rw [sectionTold_kv, tell_append, a6, ← b6]
      · rw [a7, b7, sectionDates, List.append_assoc]

theorem getValue_more {p p' : Parser} (hi : Inv p.st) (hi' : Inv p'.st) (hm : p'.st.map = p.st.map) {x : Heap} (hh : p'.st.heap = p.st.heap ++ x) (k : Str) :
    p'.getValue k = p.getValue k := by
  rcases hi.getValue_cases k with ⟨h1, h2⟩ | ⟨a, h1, h2, h3⟩ | ⟨a, t, fp, h1, h2, h3⟩
  · rw [h2, hi'.getValue_none, hm]; exact h1
  · rw [h3]
    have h2' : p'.st.heap[a]? = some .table := by
      rw [hh, List.getElem?_append_left (List.getElem?_eq_some_iff.mp h2).1]; exact h2
    obtain ⟨c, hg⟩ := valOf_some.mp h1
    simp only [Parser.getValue, hm, hg, Out.bind_eq, toVal_table h2']; rfl
  · rw [h3]
    exact hi'.getValue_rep (by rw [hm]; exact h1) (by rw [hh]; exact h2.append _)

theorem getChildren_more {p p' : Parser} (hm : p'.st.map = p.st.map) (k : Str) : p'.getChildren k = p.getChildren k := by
  rw [getChildren_kids, getChildren_kids, hm]

end Tomllib
