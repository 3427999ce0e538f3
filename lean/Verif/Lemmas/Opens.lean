import Verif.Lemmas.Leak
import Verif.Lemmas.HistRead
import Verif.Lemmas.DocErrs
/-!
# Table headers that are in order, and the lines below them, after any lines without arrays of tables
-/

namespace Tomllib

theorem valOf_stdEntry (m : KMap) (a : Addr) (k x : Str) : valOf (stdEntry m a k) x = if k = x then some a else valOf m x := by
  unfold stdEntry
  split <;> rw [valOf_insert]

theorem valOf_stdParent {m m' : KMap} {pk nm : Str} (h : stdParent m pk nm = .ok m') (x : Str) : valOf m' x = valOf m x := by
  unfold stdParent at h
  split at h
  next v ks hg =>
    simp at h; subst h
    rw [valOf_insert]
    split
    next e => subst e; simp [valOf, hg]
    · rfl
  · simp at h
  · simp at h; subst h; rfl

theorem stdTableAct_opens {t : Table} {st : PState} (hw : (TableType.std t).wf) (hk : t.keys.length ≤ st.keychain.length)
    (hpop : stdPop (.std t) st.lastArrayTables st.lastArrayTablesIndex = ([], [])) (ht : ¬ Turned st.map st.heap t.names) {x : PState × TableType} (hx : stdTableAct t st = .ok x) :
    x.1.heap = st.heap ++ [.table] ∧ valOf x.1.map (nkey t.names) = some st.heap.length ∧ (∀ k, k ≠ nkey t.names → valOf st.map k = none → valOf x.1.map k = none) ∧
      Ctx t.names x.1 := by
  obtain ⟨v, e1, e2⟩ := getArrayTableKey_std st.map st.heap hw [] 0
  have hst : sameTop (.std t) [] = false := rfl
  have hne : t.names ≠ [] := by
    have : t.keys ≠ [] := hw.1
    simpa [Table.names] using this
  simp only [stdTableAct, if_neg (Nat.not_lt.mpr hk), hpop, stdCheck, hst, Out.bind_eq, List.nil_append, e1, Out.bind] at hx
  cases v with
  | false => exact absurd (.inl fun h => by have := e2.mpr h; simp at this) ht
  | true =>
    simp only [Bool.not_true, Bool.false_eq_true, if_false] at hx
    cases hc : keyHasChildrenWithValues st.map st.heap (par t.names.dropLast) with
    | panic y => rw [hc] at hx; simp [Out.bind] at hx
    | fuel => rw [hc] at hx; simp [Out.bind] at hx
    | ok b =>
      have hbad : (b || tableDefined st.map st.heap (nkey t.names)) = false := by
        rw [Bool.eq_false_iff]
        intro h
        simp only [Bool.or_eq_true] at h
        rcases h with rfl | h
        · exact ht (.inr (.inl hc))
        · exact ht (.inr (.inr h))
      rw [hc] at hx
      simp only [hbad, Bool.false_eq_true, if_false] at hx
      cases h1 : addImplicitTables st.map st.heap [] [] (.std t) with
      | panic y => rw [h1] at hx; simp at hx
      | fuel => rw [h1] at hx; simp at hx
      | ok m1 =>
        rw [h1] at hx
        obtain ⟨m2, g1, _, g3, _⟩ := addToTableSet_nil m1 ((t.keys.map (·.key)).getLastD [])
        simp only [g1] at hx
        cases h3 : stdParent (stdEntry m2 st.heap.length (nkey t.names)) (par t.names.dropLast) ((t.keys.map (·.key)).getLastD []) with
        | panic y => rw [h3] at hx; simp at hx
        | fuel => rw [h3] at hx; simp at hx
        | ok m3 =>
          rw [h3] at hx
          simp at hx
          subst hx
          refine ⟨rfl, ?_, fun k hk hn => ?_, rfl, rfl, Table.namesWf hw.2, by rw [if_neg hne]; exact ⟨t, hw, rfl, rfl, rfl⟩⟩
          · show valOf m3 _ = _
            rw [valOf_stdParent h3, valOf_stdEntry, if_pos rfl]
          · show valOf m3 _ = _
            rw [valOf_stdParent h3, valOf_stdEntry, if_neg (Ne.symm hk), g3]
            cases hv : valOf m1 k with
            | none => rfl
            | some a =>
              have := addImplicitTables_from (a + 1) h1 k a hv
              rw [hn] at this
              simp at this

theorem Flow.kv {st : PState} (h : Flow st) {T : List Str} (hc : Ctx T st) {w1 k : Str} {s : WSSep} {v : VT} {w2 : Str} {c : Option Str} (hw : (ET.kv w1 k s v w2 c).wf) :
    ∃ st', (ET.kv w1 k s v w2 c).eff st = .ok st' ∧ Flow st' ∧ Ctx T st' ∧ Left st st' (v.allEntries (dotted (nkey T) k)) := by
  rcases h.next hw trivial with ⟨⟨_, _, _, _, e, _⟩, _⟩ | ⟨_, st', he, hF⟩
  · simp at e
  · refine ⟨st', he, hF, ?_⟩
    rw [ET.eff, Out.bind_ok] at he
    obtain ⟨s1, e1, e2⟩ := he
    have hpk : (st.pushK k).keychain = [] ++ [.str k] := by simp [PState.pushK, h.kc]
    have hpw : PathWf (st.pushK k).keychain := by rw [hpk]; exact PathWf.push (kc := []) trivial hw.2.1
    have hcp : Ctx T (st.pushK k) := hc.congr rfl rfl rfl rfl
    have f1 := VT.eff_frame e1
    have hc1 := hcp.frame f1
    have a1 := (VT.eff_val v hcp hpw (by rw [hpk]; simp) hw.2.2.2.1 e1).1
    have b1 := (keyvalAct_val hc1 hw.2.1 (kc := []) trivial (f1.keychain.trans hpk) e2).2.1
    have f2 := (keyvalAct_frame e2).2
    have hh : st'.heap = st.heap ++ v.cells st.heap.length := by rw [keyvalAct_heap e2, VT.eff_heap _ _ _ e1]; rfl
    have hK : keyOf [] (names T ++ [.str k]) = dotted (nkey T) k := by rw [keyOf_append]; rfl
    refine ⟨hc1.congr f2.lastTable f2.tables f2.index f2.err, ⟨_, hh⟩, v.aents (dotted (nkey T) k) st.heap.length ++ [(dotted (nkey T) k, s1.heap.length - 1, v)], ?_, ?_, fun x => ?_⟩
    · rw [List.map_append, VT.aents_entries]; rfl
    · refine EntsRep.append ?_ ?_
      · rw [hh]
        have := v.aents_rep (dotted (nkey T) k) st.heap []
        rwa [List.append_nil] at this
      · intro e he
        simp at he
        subst he
        rw [keyvalAct_heap e2]
        exact VT.rep_after e1
    · have a1 := a1 x
      have b1 := b1 x
      rw [hpk, List.nil_append, hK] at a1
      rw [List.append_nil, hK] at b1
      rw [b1, a1, lookup_append, Option.or_assoc']
      show (valOf st.map x).or _ = _
      congr 1
      show ((lookup x (v.aents (dotted (nkey T) k) st.heap.length)).map _).or _ = _
      cases lookup x (v.aents (dotted (nkey T) k) st.heap.length) with
      | some y => rfl
      | none =>
        simp only [Option.map_none, Option.none_or, lookup]
        split <;> rfl

theorem Flow.section : ∀ (ls : List (Str × ET)) {T : List Str} {st : PState}, Flow st → Ctx T st → (∀ l ∈ ls, l.2.wf) → (∀ l ∈ ls, l.2.below) →
    ∃ st' ns, linesEff ls st = .ok (st', ns) ∧ Flow st' ∧ Left st st' (sectionValues (nkey T) ls)
  | [], T, st, h, _, _, _ => ⟨st, [], rfl, h, ⟨[], by simp⟩, [], rfl, fun e he => by simp at he, fun x => by simp [lookup]⟩
  | (nl, e) :: ls, T, st, h, hc, hw, hb => by
    have h0 := h.lines (nlCount nl)
    have hc0 : Ctx T (st.lines (nlCount nl)) := hc.congr rfl rfl rfl rfl
    have hw' : ∀ l ∈ ls, l.2.wf := fun l hl => hw l (by simp [hl])
    have hb' : ∀ l ∈ ls, l.2.below := fun l hl => hb l (by simp [hl])
    have he := hb (nl, e) (by simp)
    have hwe := hw (nl, e) (by simp)
    have hl : ∀ {s l}, Left (st.lines (nlCount nl)) s l → Left st s l := fun h => ⟨h.1, h.2⟩
    cases e with
    | blank w =>
      obtain ⟨st', ns, a1, a2, a4⟩ := Flow.section ls h0 hc0 hw' hb'
      exact ⟨st', _, by rw [linesEff, ET.eff, Out.bind, a1]; rfl, a2, hl a4⟩
    | comment w c =>
      obtain ⟨st', ns, a1, a2, a4⟩ := Flow.section ls h0 hc0 hw' hb'
      exact ⟨st', _, by rw [linesEff, ET.eff, Out.bind, a1]; rfl, a2, hl a4⟩
    | table => exact he.elim
    | kv w1 k s v w2 c =>
      obtain ⟨st1, b1, b2, b3, b4⟩ := h0.kv hc0 hwe
      obtain ⟨st', ns, a1, a2, a4⟩ := Flow.section ls b2 b3 hw' hb'
      exact ⟨st', _, by rw [linesEff, b1, Out.bind, a1]; rfl, a2, (hl b4).trans a4⟩

/-! ## What is reported -/

theorem Seen.exists (m : KMap) : ∃ seen, Seen m seen := by
  refine ⟨(m.map (·.1)).filter fun x => (valOf m x).isSome, fun x => ?_⟩
  rw [List.mem_filter, Option.isSome_iff_ne_none]
  refine ⟨fun h => ⟨?_, h⟩, fun h => h.2⟩
  obtain ⟨a, ha⟩ := Option.ne_none_iff_exists'.mp h
  obtain ⟨c, hg⟩ := valOf_some.mp ha
  have key : ∀ (m : KMap) {v : HashValue}, m.get? x = some v → x ∈ m.map (·.1) := by
    intro m
    induction m with
    | nil => intro v h; simp [SMap.get?] at h
    | cons e m ih =>
      intro v h
      obtain ⟨k, w⟩ := e
      rw [SMap.get?] at h
      split at h
      next e => simp [e]
      · exact List.mem_cons_of_mem _ (ih h)
  exact key m hg

theorem Flow.kv_issues {st st' : PState} (h : Flow st) {T : List Str} (hc : Ctx T st) {seen : List Str} (hs : Seen st.map seen) {w1 k : Str} {s : WSSep} {v : VT} {w2 : Str} {c : Option Str}
    (hw : (ET.kv w1 k s v w2 c).wf) (he : (ET.kv w1 k s v w2 c).eff st = .ok st') : DocIss st.errors st'.errors seen (valEnts (v.allEntries (dotted (nkey T) k))) := by
  have hcp : Ctx T (st.pushK k) := hc.congr rfl rfl rfl rfl
  have hpk : (st.pushK k).keychain = names [k] := by simp [PState.pushK, h.kc, names]
  have hpw : PathWf (st.pushK k).keychain := by
    rw [hpk]; exact ⟨hw.2.1, by simp⟩
  have hne : (st.pushK k).keychain ≠ [] := by rw [hpk]; simp [names]
  rw [ET.eff, Out.bind_ok] at he
  obtain ⟨st1, h1, h2⟩ := he
  have f1 := VT.eff_frame h1
  have hc1 := hcp.frame f1
  obtain ⟨i1, _⟩ := v.eff_issues hcp (h.inv.pushK k) hpw hne hw.2.2.2.1 (show Seen (st.pushK k).map seen from hs) h1
  obtain ⟨a1, _⟩ := v.eff_val hcp hpw hne hw.2.2.2.1 h1
  obtain ⟨r1, _⟩ := VT.eff_read (h.inv.pushK k) h1
  have hs1 := Seen.of_val (show Seen (st.pushK k).map seen from hs) (v.aents_entries _ _) a1
  have i2 := keyvalAct_issues (v := v) hc1 (by rw [f1.keychain]; exact hpw) (by rw [f1.keychain]; exact hne) hs1 r1 h2
  have i3 := i1.trans i2
  rw [f1.keychain, hpk, ← names_append] at i3
  obtain ⟨l, b1, b2, b3, b4, b5, b6⟩ := i3
  rw [← nkey_push]
  refine ⟨l, b1, b2, by simpa using b3, ?_, b5, ?_⟩
  · intro x hx
    have := b4 x hx
    rw [List.append_nil, VT.mem_mixedKeys] at this
    obtain ⟨e, e1, rfl, e3⟩ := this
    exact ⟨.val e.2, by simp only [valEnts, List.mem_map]; exact ⟨e, e1, rfl⟩, e3⟩
  · intro e he hm
    apply b6
    simp only [valEnts, List.mem_map] at he
    obtain ⟨y, y1, rfl⟩ := he
    have : y.1 ∈ v.mixedKeys (keyOf [] (names (T ++ [k]))) := (v.mem_mixedKeys _ _).mpr ⟨y, y1, rfl, hm⟩
    intro e
    rw [List.append_nil] at e
    rw [e] at this
    simp at this

theorem Left.seen {st st' : PState} {l : List (Str × VT)} (h : Left st st' l) {seen : List Str} (hs : Seen st.map seen) : Seen st'.map (seen ++ l.map (·.1)) := by
  obtain ⟨al, h1, _, h3⟩ := h.val
  exact Seen.of_val hs h1 h3

theorem Flow.section_issues : ∀ (ls : List (Str × ET)) {T : List Str} {st : PState}, Flow st → Ctx T st → ∀ {seen : List Str}, Seen st.map seen → (∀ l ∈ ls, l.2.wf) → (∀ l ∈ ls, l.2.below) →
    ∀ {st' : PState} {ns : List NLExpression}, linesEff ls st = .ok (st', ns) → DocIss st.errors st'.errors seen (valEnts (sectionValues (nkey T) ls))
  | [], T, st, _, _, seen, _, _, _, st', ns, he => by
    simp [linesEff] at he
    rw [← he.1]; exact .refl _ _
  | (nl, e) :: ls, T, st, h, hc, seen, hs, hw, hb, st', ns, hr => by
    have h0 := h.lines (nlCount nl)
    have hc0 : Ctx T (st.lines (nlCount nl)) := hc.congr rfl rfl rfl rfl
    have hs0 : Seen (st.lines (nlCount nl)).map seen := hs
    have hw' : ∀ l ∈ ls, l.2.wf := fun l hl => hw l (by simp [hl])
    have hb' : ∀ l ∈ ls, l.2.below := fun l hl => hb l (by simp [hl])
    have he := hb (nl, e) (by simp)
    have hwe := hw (nl, e) (by simp)
    rw [linesEff, Out.bind_ok] at hr
    obtain ⟨s1, r1, hr⟩ := hr
    rw [Out.bind_ok] at hr
    obtain ⟨⟨s2, n2⟩, r2, hr⟩ := hr
    simp at hr
    obtain ⟨rfl, _⟩ := hr
    cases e with
    | blank w =>
      simp [ET.eff] at r1; subst r1
      exact Flow.section_issues ls h0 hc0 hs0 hw' hb' r2
    | comment w c =>
      simp [ET.eff] at r1; subst r1
      exact Flow.section_issues ls h0 hc0 hs0 hw' hb' r2
    | table => exact he.elim
    | kv w1 k s v w2 c =>
      obtain ⟨st1, b1, b2, b3, b4⟩ := h0.kv hc0 hwe
      rw [r1] at b1
      simp at b1; subst b1
      have i1 := h0.kv_issues hc0 hs0 hwe r1
      have i2 := Flow.section_issues ls b2 b3 (b4.seen hs0) hw' hb' r2
      rw [sectionValues, valEnts_append]
      exact i1.trans (by simpa [valEnts, Function.comp_def] using i2)

end Tomllib
