import Verif.Lemmas.Total
/-!
# Headers of tables
-/

namespace Tomllib

/-- The key table between lines. -/
abbrev Tab (m : KMap) (h : Heap) : Prop := TabX (fun _ => False) m h

theorem keyHasValue_append {m : KMap} {h l : Heap} (hm : MapInv m h.length) (x : Str) : keyHasValue m (h ++ l) x = keyHasValue m h x := by
  rw [Bool.eq_iff_iff, keyHasValue_eq, keyHasValue_eq]
  constructor
  · rintro ⟨a, h1, h2⟩
    exact ⟨a, h1, by rwa [List.getElem?_append_left (hm.lt x a h1)] at h2⟩
  · rintro ⟨a, h1, h2⟩
    exact ⟨a, h1, by rwa [List.getElem?_append_left (hm.lt x a h1)]⟩

theorem Free.append {m : KMap} {h l : Heap} (hm : MapInv m h.length) {Q : List Str} : Free m (h ++ l) Q ↔ Free m h Q := by
  unfold Free
  simp only [keyHasValue_append hm]

theorem TabX.append {X : List Str → Prop} {m : KMap} {h : Heap} (ht : TabX X m h) (hm : MapInv m h.length) (l : Heap) : TabX X m (h ++ l) :=
  ⟨fun Q k hQ hf => ht.up Q k hQ ((Free.append hm).mp hf), fun Q hQ hf => ht.kind Q hQ ((Free.append hm).mp hf),
   fun Q k hQ hf => ht.down Q k hQ ((Free.append hm).mp hf)⟩

/-- A table that has entries along `P`, extended by the name `k`. -/
theorem Tab.link {m : KMap} {H : Heap} (ht : Tab m H) {P : List Str} {k : Str} (hw : NamesWf (P ++ [k])) (hf : Free m H P) {v : Option Addr} {ks : List Str}
    (hg : m.get? (par P) = some ⟨v, .keys ks⟩) (hk : k ∉ ks) :
    Tab ((m.insert (par P) ⟨v, .keys (ks ++ [k])⟩).insert (nkey (P ++ [k])) ⟨none, .keys []⟩) H := by
  have hpk : par P ≠ nkey (P ++ [k]) := by
    rw [← par_snoc]
    intro e
    have := par_inj hw.left hw e
    simp at this
  have hno : m.get? (nkey (P ++ [k])) = none := by
    cases e : m.get? (nkey (P ++ [k])) with
    | none => rfl
    | some hv =>
      obtain ⟨v', ks', g1, g2⟩ := ht.up P k hw hf (by rw [e]; simp) (by simp)
      rw [hg] at g1; simp at g1
      rw [← g1.2] at g2
      exact absurd g2 hk
  generalize hm1 : (m.insert (par P) ⟨v, .keys (ks ++ [k])⟩).insert (nkey (P ++ [k])) ⟨none, .keys []⟩ = m1
  have hget : ∀ x, m1.get? x = if nkey (P ++ [k]) = x then some ⟨none, .keys []⟩ else if par P = x then some ⟨v, .keys (ks ++ [k])⟩ else m.get? x := by
    intro x; rw [← hm1, SMap.get?_insert, SMap.get?_insert]
  have hval : ∀ x, valOf m1 x = valOf m x := by
    intro x
    simp only [valOf, hget]
    split
    next e => subst e; rw [hno]; rfl
    · split
      next e => subst e; rw [hg]; rfl
      · rfl
  have hfree : ∀ {Q}, NamesWf Q → (Free m1 H Q ↔ Free m H Q) := fun hQ => Free.congr hQ fun a _ _ => keyHasValue_congr (hval _)
  have hsome : ∀ {x}, m.get? x ≠ none → m1.get? x ≠ none := by
    intro x hx
    rw [hget]; split
    · simp
    · split
      · simp
      · exact hx
  have hname : ∀ {Q k'}, NamesWf Q → (hasName m1 (par Q) k' ↔ (Q = P ∧ k' = k) ∨ hasName m (par Q) k') := by
    intro Q k' hQ
    unfold hasName
    rw [hget]
    split
    next e =>
      rw [← par_snoc] at e
      have hQe := par_inj hw hQ e
      rw [← e, par_snoc, hno]
      constructor
      · rintro ⟨v', ks', g1, g2⟩
        simp at g1
        rw [g1.2] at g2
        simp at g2
      · rintro (⟨rfl, _⟩ | ⟨_, _, g, _⟩)
        · simp at hQe
        · simp at g
    · split
      next e =>
        have hQe := par_inj hw.left hQ e
        subst hQe
        rw [hg]
        constructor
        · rintro ⟨v', ks', g1, g2⟩
          simp at g1
          rw [← g1.2, List.mem_append, List.mem_singleton] at g2
          rcases g2 with g2 | g2
          · exact .inr ⟨v, ks, rfl, g2⟩
          · exact .inl ⟨rfl, g2⟩
        · rintro (⟨_, rfl⟩ | ⟨v', ks', g1, g2⟩)
          · exact ⟨v, _, rfl, by simp⟩
          · simp at g1
            rw [← g1.2] at g2
            exact ⟨v, _, rfl, by simp [g2]⟩
      next e =>
        constructor
        · exact .inr
        · rintro (⟨rfl, _⟩ | g)
          · exact absurd rfl e
          · exact g
  refine ⟨fun Q k' hQ hf' hs _ => ?_, fun Q hQ hf' _ => ?_, fun Q k' hQ hf' hn => ?_⟩
  · rw [hname hQ.left]
    by_cases e : Q ++ [k'] = P ++ [k]
    · obtain ⟨e1, e2⟩ := List.append_inj' e rfl
      simp at e2
      exact .inl ⟨e1, e2⟩
    · right
      refine ht.up Q k' hQ ((hfree hQ.left).mp hf') ?_ (by simp)
      rw [hget, if_neg (fun h => e (nkey_inj hQ hw h.symm))] at hs
      split at hs
      next e2 => rw [← e2, hg]; simp
      · exact hs
  · intro hv' e
    rw [hget] at e
    split at e
    · simp at e; subst e; exact ⟨_, rfl⟩
    · split at e
      · simp at e; subst e; exact ⟨_, rfl⟩
      · exact ht.kind Q hQ ((hfree hQ).mp hf') (by simp) hv' e
  · rcases (hname hQ).mp hn with ⟨rfl, rfl⟩ | hn
    · exact ⟨hw _ (by simp), by rw [hget, if_pos rfl]; simp⟩
    · obtain ⟨d1, d2⟩ := ht.down Q k' hQ ((hfree hQ).mp hf') hn
      exact ⟨d1, hsome d2⟩

/-- What is added along the names of a header: the entries of the tables above it, and its own name in its parent. -/
theorem implicitLoop_spec {H : Heap} (k : Str) : ∀ (ks P : List Str) (m : KMap) (first : Bool), NamesWf (P ++ ks ++ [k]) → Tab m H → Free m H (P ++ ks) →
    m.get? (par P) ≠ none →
    ∃ m1 v ks', implicitLoop (ks ++ [k]) m (par P) first = .ok (m1.insert (par (P ++ ks)) ⟨v, .keys (insertUniq ks' k).1⟩) ∧
      m1.get? (par (P ++ ks)) = some ⟨v, .keys ks'⟩ ∧ Tab m1 H ∧ (∀ x, valOf m1 x = valOf m x) ∧ Mono m m1 ∧
      (∀ x, (∀ Q, NamesWf Q → Q.length ≤ (P ++ ks).length → x ≠ par Q) → m1.get? x = m.get? x)
  | [], P, m, first, hw, ht, hf, hp => by
    obtain ⟨hv, e⟩ := Option.ne_none_iff_exists'.mp hp
    simp only [List.append_nil] at hw hf ⊢
    obtain ⟨ks', e2⟩ := ht.kind P hw.left hf (by simp) hv e
    obtain ⟨v, c⟩ := hv
    dsimp only at e2; subst e2
    refine ⟨m, v, ks', ?_, e, ht, fun _ => rfl, .refl _, fun _ _ => rfl⟩
    simp [implicitLoop, e]
  | k1 :: ks, P, m, first, hw, ht, hf, hp => by
    obtain ⟨hv, e⟩ := Option.ne_none_iff_exists'.mp hp
    have hwP : NamesWf (P ++ [k1]) := by
      have : P ++ (k1 :: ks) ++ [k] = (P ++ [k1]) ++ (ks ++ [k]) := by simp
      rw [this] at hw; exact hw.left
    have hfP : Free m H P := hf.left
    obtain ⟨ks', e2⟩ := ht.kind P hwP.left hfP (by simp) hv e
    obtain ⟨v, c⟩ := hv
    dsimp only at e2; subst e2
    have hassoc : P ++ k1 :: ks = P ++ [k1] ++ ks := by simp
    have hlk : (if par P ≠ root then par P ++ lit% "." ++ k1 else k1) = par (P ++ [k1]) := by
      rw [par_snoc, nkey_snoc]
      by_cases hP : P = []
      · subst hP
        simp [par, nkey, names, keyOf, dotted]
      · rw [if_pos (by rw [par_ne hP]; exact nkey_ne_root hwP.left), par_ne hP]
        have := Key.add_eq (nkey P) (.str k1)
        have hn : nkey P ≠ [] := keyOf_ne_nil hwP.left.path (by simpa [names] using hP)
        rw [if_pos hn] at this
        exact this.symm
    by_cases hmem : k1 ∈ ks'
    · -- the table is there
      have hpr : m.get? (par (P ++ [k1])) ≠ none := by
        rw [par_snoc]
        exact (ht.down P k1 hwP.left hfP ⟨v, ks', e, hmem⟩).2
      have hins : (m.insert (par P) ⟨v, .keys ks'⟩) = m.insert (par P) ⟨v, .keys ks'⟩ := rfl
      have ht' : Tab (m.insert (par P) ⟨v, .keys ks'⟩) H := by
        have hg : ∀ x, (m.insert (par P) ⟨v, .keys ks'⟩).get? x = m.get? x := by
          intro x; rw [SMap.get?_insert]; split
          next e' => rw [← e', e]
          · rfl
        have hv : ∀ x, valOf (m.insert (par P) ⟨v, .keys ks'⟩) x = valOf m x := fun x => by simp only [valOf, hg]
        refine ⟨fun Q k' hQ hf' hs hx => ?_, fun Q hQ hf' hx => ?_, fun Q k' hQ hf' hn => ?_⟩
        · have := ht.up Q k' hQ ((Free.congr hQ.left fun a _ _ => keyHasValue_congr (hv _)).mp hf') (by rwa [hg] at hs) hx
          unfold hasName at this ⊢; rwa [hg]
        · have := ht.kind Q hQ ((Free.congr hQ fun a _ _ => keyHasValue_congr (hv _)).mp hf') hx
          unfold keysK at this ⊢; rwa [hg]
        · have := ht.down Q k' hQ ((Free.congr hQ fun a _ _ => keyHasValue_congr (hv _)).mp hf') (by unfold hasName at hn ⊢; rwa [hg] at hn)
          rwa [hg]
      have hg : ∀ x, (m.insert (par P) ⟨v, .keys ks'⟩).get? x = m.get? x := by
        intro x; rw [SMap.get?_insert]; split
        next e' => rw [← e', e]
        · rfl
      have hv : ∀ x, valOf (m.insert (par P) ⟨v, .keys ks'⟩) x = valOf m x := fun x => by simp only [valOf, hg]
      obtain ⟨m1, v1, ks1, r1, r2, r3, r4, r5, r6⟩ := implicitLoop_spec k ks (P ++ [k1]) (m.insert (par P) ⟨v, .keys ks'⟩) false (by simpa using hw) ht'
        ((Free.congr (by rw [← hassoc]; exact hw.left) fun a _ _ => keyHasValue_congr (hv _)).mpr (by rw [← hassoc]; exact hf)) (by rw [hg]; exact hpr)
      refine ⟨m1, v1, ks1, ?_, by rw [hassoc]; exact r2, r3, fun x => (r4 x).trans (hv x), ⟨fun x hx => r5.some x (by rwa [hg]), fun x v' l hx => r5.keys x v' l (by rwa [hg])⟩,
        fun x hx => (r6 x (by rw [← hassoc]; exact hx)).trans (hg x)⟩
      rw [List.cons_append, implicitLoop]
      simp only [e, insertUniq, if_pos hmem]
      rw [hlk, hassoc]
      simpa [insertUniq] using r1
    · have ht' := ht.link hwP hfP e hmem
      have hpk : par P ≠ nkey (P ++ [k1]) := by
        rw [← par_snoc]
        intro e'
        have := par_inj hwP.left hwP e'
        simp at this
      have hno : m.get? (nkey (P ++ [k1])) = none := by
        cases e' : m.get? (nkey (P ++ [k1])) with
        | none => rfl
        | some hv =>
          obtain ⟨v', ks2, g1, g2⟩ := ht.up P k1 hwP hfP (by rw [e']; simp) (by simp)
          rw [e] at g1; simp at g1
          rw [← g1.2] at g2
          exact absurd g2 hmem
      generalize hm2 : (m.insert (par P) ⟨v, .keys (ks' ++ [k1])⟩).insert (nkey (P ++ [k1])) ⟨none, .keys []⟩ = m2 at ht'
      have hget : ∀ x, m2.get? x = if nkey (P ++ [k1]) = x then some ⟨none, .keys []⟩ else if par P = x then some ⟨v, .keys (ks' ++ [k1])⟩ else m.get? x := by
        intro x; rw [← hm2, SMap.get?_insert, SMap.get?_insert]
      have hval : ∀ x, valOf m2 x = valOf m x := by
        intro x
        simp only [valOf, hget]
        split
        next e' => subst e'; rw [hno]; rfl
        · split
          next e' => subst e'; rw [e]; rfl
          · rfl
      have hmono : Mono m m2 := by
        rw [← hm2]
        refine (Mono.insert fun v' l h => ?_).trans (Mono.insert fun v' l h => ?_)
        · rw [e] at h; simp at h; rw [← h.2]
          exact ⟨_, rfl, fun x hx => by simp [hx]⟩
        · rw [SMap.get?_insert, if_neg hpk, hno] at h; simp at h
      obtain ⟨m1, v1, ks1, r1, r2, r3, r4, r5, r6⟩ := implicitLoop_spec k ks (P ++ [k1]) m2 false (by simpa using hw) ht'
        ((Free.congr (by rw [← hassoc]; exact hw.left) fun a _ _ => keyHasValue_congr (hval _)).mpr (by rw [← hassoc]; exact hf))
        (by rw [par_snoc, hget, if_pos rfl]; simp)
      refine ⟨m1, v1, ks1, ?_, by rw [hassoc]; exact r2, r3, fun x => (r4 x).trans (hval x), hmono.trans r5, fun x hx => ?_⟩
      · rw [List.cons_append, implicitLoop]
        simp only [e, insertUniq, if_neg hmem]
        rw [hlk, hassoc]
        have : (m.insert (par P) ⟨v, .keys (ks' ++ [k1])⟩).insert (par (P ++ [k1])) ⟨none, .keys []⟩ = m2 := by rw [par_snoc]; exact hm2
        simp only [↓reduceIte, this]
        simpa [insertUniq] using r1
      · rw [r6 x (by rw [← hassoc]; exact hx), hget, if_neg, if_neg]
        · exact fun h => hx P hwP.left (by simp) h.symm
        · rw [← par_snoc]
          exact fun h => hx (P ++ [k1]) hwP (by simp) h.symm

theorem names_ne {ks : List Str} (h : ks ≠ []) : names ks ≠ [] := by
  cases ks with
  | nil => exact absurd rfl h
  | cons => simp [names]

theorem getKeyParent_nil : getKeyParent [] [] = .ok [] := rfl

theorem Ctx.pop {T : List Str} {st : PState} (h : Ctx T st) (t : TableType) : stdPop t st.lastArrayTables st.lastArrayTablesIndex = ([], []) := by
  obtain ⟨h1, _, _, h4⟩ := h
  by_cases hT : T = []
  · rw [if_pos hT] at h4
    rw [h4.2] at h1 ⊢
    have : st.lastArrayTablesIndex = [] := List.length_eq_zero_iff.mp (by simpa using h1.symm)
    rw [this]
    simp [stdPop, isTopStd, equalKeyLength, sameTop, popLoop]
  · rw [if_neg hT] at h4
    obtain ⟨t', _, _, _, g4⟩ := h4
    rw [g4] at h1 ⊢
    obtain ⟨i, hi⟩ := List.length_eq_one_iff.mp (by simpa using h1.symm)
    rw [hi]
    simp [stdPop, isTopStd, equalKeyLength, sameTop, popLoop]

/-- A header is in order: no name on its way has a value, there is no such table yet, its parent has no values of its own. -/
def HeaderGood (m : KMap) (h : Heap) (N : List Str) : Prop :=
  Free m h N ∧ valOf m (nkey N) = none ∧ (N.dropLast ≠ [] → ∀ k, KeyWf k → keyHasValue m h (nkey (N.dropLast ++ [k])) = false)

theorem stdCheck_spec {m : KMap} {h : Heap} (ht : Tab m h) {t : Table} (hw : (TableType.std t).wf) (hnw : NamesWf t.names) (hne : t.names ≠ []) :
    ∃ b, stdCheck m h (.std t) [] [] = .ok (b, nkey t.names, par t.names.dropLast) ∧ (b = false ↔ HeaderGood m h t.names) := by
  obtain ⟨v, e1, e2⟩ := getArrayTableKey_std m h hw [] 0
  have hst : sameTop (.std t) [] = false := rfl
  simp only [stdCheck, hst, Out.bind_eq, List.nil_append, e1, Out.bind]
  have hdw : NamesWf t.names.dropLast := fun k hk => hnw k (List.dropLast_subset _ hk)
  by_cases hv : v = true
  · have hfr : Free m h t.names := e2.mp hv
    have hfd : Free m h t.names.dropLast := by
      have := List.dropLast_concat_getLast hne
      rw [← this] at hfr
      exact hfr.left
    subst hv
    have hkh : ∃ b, keyHasChildrenWithValues m h (par t.names.dropLast) = .ok b ∧
        (b = false ↔ (t.names.dropLast ≠ [] → ∀ k, KeyWf k → keyHasValue m h (nkey (t.names.dropLast ++ [k])) = false)) := by
      unfold keyHasChildrenWithValues
      by_cases hd : t.names.dropLast = []
      · rw [hd, if_pos (show par [] = root from rfl)]
        exact ⟨false, rfl, by simp⟩
      · rw [par_ne hd, if_neg (nkey_ne_root hdw)]
        have hkey : ∀ k, nkey t.names.dropLast ++ lit% "." ++ k = nkey (t.names.dropLast ++ [k]) := by
          intro k
          rw [nkey_snoc]
          have := Key.add_eq (nkey t.names.dropLast) (.str k)
          have hn : nkey t.names.dropLast ≠ [] := keyOf_ne_nil hdw.path (names_ne hd)
          rw [if_pos hn] at this
          exact this.symm
        have hup : ∀ k, KeyWf k → keyHasValue m h (nkey (t.names.dropLast ++ [k])) = true → hasName m (nkey t.names.dropLast) k := by
          intro k hk hh
          rw [← par_ne hd]
          refine ht.up _ k (hdw.append fun x hx => by simp at hx; subst hx; exact hk) hfd ?_ (by simp)
          rw [keyHasValue_eq] at hh
          obtain ⟨a, ha, _⟩ := hh
          intro e
          simp [valOf, e] at ha
        split
        next hno =>
          refine ⟨false, rfl, by
            simp only [true_iff]
            intro _ k hk
            cases hh : keyHasValue m h (nkey (t.names.dropLast ++ [k])) with
            | false => rfl
            | true =>
              obtain ⟨_, _, g, _⟩ := hup k hk hh
              rw [hno] at g; simp at g⟩
        next hv hg =>
          have hkk := ht.kind _ hdw hfd (by simp)
          rw [par_ne hd] at hkk
          obtain ⟨ks, e⟩ := hkk hv hg
          obtain ⟨v', c⟩ := hv
          dsimp only at e; subst e
          dsimp only
          refine ⟨_, rfl, ?_⟩
          rw [List.any_eq_false]
          constructor
          · intro hall _ k hk
            cases hh : keyHasValue m h (nkey (t.names.dropLast ++ [k])) with
            | false => rfl
            | true =>
              obtain ⟨_, ks', g, g2⟩ := hup k hk hh
              rw [hg] at g; simp at g
              rw [← g.2] at g2
              have := hall k g2
              rw [hkey k, hh] at this
              exact absurd rfl this
          · intro hall k hk
            rw [hkey k]
            have hkw := (ht.down t.names.dropLast k hdw hfd (by rw [par_ne hd]; exact ⟨v', ks, hg, hk⟩)).1
            rw [hall hd k hkw]; simp
    obtain ⟨b, e3, e4⟩ := hkh
    have htd : tableDefined m h (nkey t.names) = false ↔ valOf m (nkey t.names) = none := by
      have hno := hfr t.names [] hne (by simp)
      unfold tableDefined
      unfold keyHasValue at hno
      cases hg : m.get? (nkey t.names) with
      | none => simp [valOf, hg]
      | some hv =>
        obtain ⟨v', c⟩ := hv
        rw [hg] at hno
        cases v' with
        | none => simp [valOf, hg]
        | some a => simp [valOf, hg] at hno ⊢; exact hno
    refine ⟨b || tableDefined m h (nkey t.names), ?_, ?_⟩
    · simp [e3]
    · rw [Bool.or_eq_false_iff, e4, htd]
      unfold HeaderGood
      constructor
      · rintro ⟨h1, h2⟩; exact ⟨hfr, h2, h1⟩
      · rintro ⟨_, h2, h3⟩; exact ⟨h3, h2⟩
  · simp at hv
    subst hv
    refine ⟨true, by simp, ?_⟩
    simp only [Bool.true_eq_false, false_iff]
    intro hg
    have := e2.mpr hg.1
    simp at this

theorem addImplicitTables_nil (m : KMap) (h : Heap) (t : Table) : addImplicitTables m h [] [] (.std t) = implicitLoop t.names m root true := by
  simp [addImplicitTables, getArrayTableKey, arrayTableKeyLoop, Out.bind_eq, Out.bind, Table.names, TableType.table]

theorem addToTableSet_nil (m : KMap) (k : Str) : ∃ m', addToTableSet m [] [] k = .ok m' ∧ Mono m m' ∧ (∀ x, valOf m' x = valOf m x) ∧
    ∀ x, x ≠ [] → m'.get? x = m.get? x := by
  simp only [addToTableSet, getKeyParent_nil, Out.bind_eq, Out.bind]
  split
  next v ks hg =>
    refine ⟨_, rfl, Mono.insert fun v' l h => ?_, fun x => ?_, fun x hx => ?_⟩
    · rw [hg] at h; simp at h; rw [← h.2]
      exact ⟨_, rfl, fun y hy => mem_insertUniq.mpr (.inl hy)⟩
    · rw [valOf_insert]; split
      next e => subst e; simp [valOf, hg]
      · rfl
    · rw [SMap.get?_insert, if_neg (Ne.symm hx)]
  · exact ⟨m, rfl, .refl _, fun _ => rfl, fun _ _ => rfl⟩

/-- The key table after a header. -/
theorem Tab.header {m : KMap} {h : Heap} (ht : Tab m h) (hm : MapInv m h.length) {t : Table} {P : List Str} {k : Str} (hN : t.names = P ++ [k])
    (hw : NamesWf (P ++ [k])) (hf : Free m h (P ++ [k])) (hv : valOf m (nkey (P ++ [k])) = none) (hr : m.get? root ≠ none) :
    ∃ m1 m2 m', addImplicitTables m h [] [] (.std t) = .ok m1 ∧ addToTableSet m1 [] [] k = .ok m2 ∧
        stdParent (stdEntry m2 h.length (nkey (P ++ [k]))) (par P) k = .ok m' ∧
      Tab m' (h ++ [.table]) ∧ (∀ x, valOf m' x = if nkey (P ++ [k]) = x then some h.length else valOf m x) ∧ Mono m m' ∧
      m'.get? (nkey (P ++ [k])) ≠ none := by
  obtain ⟨m0, v, ks, r1, r2, r3, r4, r5, _⟩ := implicitLoop_spec k P [] m true (by simpa using hw) ht (by simpa using hf.left) hr
  simp only [List.nil_append] at r1 r2
  obtain ⟨m2, q1, q2, q3, q4⟩ := addToTableSet_nil (m0.insert (par P) ⟨v, .keys (insertUniq ks k).1⟩) k
  have hpar : par [] = root := rfl
  rw [hpar] at r1
  have hpne : par P ≠ [] := by
    unfold par; split
    · simp [root]
    next hP => exact keyOf_ne_nil hw.left.path (names_ne hP)
  have hkne : nkey (P ++ [k]) ≠ [] := keyOf_ne_nil hw.path (names_ne (by simp))
  have hpk : par P ≠ nkey (P ++ [k]) := by
    rw [← par_snoc]
    intro e
    have := par_inj hw.left hw e
    simp at this
  have g2 : m2.get? (nkey (P ++ [k])) = m0.get? (nkey (P ++ [k])) := by rw [q4 _ hkne, SMap.get?_insert, if_neg hpk]
  -- the entry of the table
  obtain ⟨c, hc, hse, hnd⟩ : ∃ c : List Str, (∀ x ∈ c, hasName m0 (nkey (P ++ [k])) x) ∧ stdEntry m2 h.length (nkey (P ++ [k])) = m2.insert (nkey (P ++ [k])) ⟨some h.length, .keys c⟩ ∧
      ∀ x, hasName m0 (nkey (P ++ [k])) x → x ∈ c := by
    have hf0 : Free m0 h (P ++ [k]) := (Free.congr hw fun a _ _ => keyHasValue_congr (r4 _)).mpr hf
    have hkk := r3.kind _ hw hf0 (by simp)
    rw [par_snoc] at hkk
    unfold stdEntry
    rw [g2]
    cases e : m0.get? (nkey (P ++ [k])) with
    | none => exact ⟨[], by simp, rfl, fun x ⟨_, _, g, _⟩ => by rw [e] at g; simp at g⟩
    | some hv' =>
      obtain ⟨ks', e2⟩ := hkk hv' e
      obtain ⟨v', c⟩ := hv'
      dsimp only at e2; subst e2
      exact ⟨ks', fun x hx => ⟨v', ks', e, hx⟩, rfl, fun x ⟨_, _, g, g2⟩ => by rw [e] at g; simp at g; rw [g.2]; exact g2⟩
  have g3 : (stdEntry m2 h.length (nkey (P ++ [k]))).get? (par P) = some ⟨v, .keys (insertUniq ks k).1⟩ := by
    rw [hse, SMap.get?_insert, if_neg (Ne.symm hpk), q4 _ hpne, SMap.get?_insert, if_pos rfl]
  generalize hm' : (stdEntry m2 h.length (nkey (P ++ [k]))).insert (par P) ⟨v, .keys (insertUniq (insertUniq ks k).1 k).1⟩ = m'
  have hget : ∀ x, x ≠ [] → m'.get? x = if par P = x then some ⟨v, .keys (insertUniq (insertUniq ks k).1 k).1⟩ else
      if nkey (P ++ [k]) = x then some ⟨some h.length, .keys c⟩ else m0.get? x := by
    intro x hx
    rw [← hm', hse, SMap.get?_insert, SMap.get?_insert]
    split
    · rfl
    next hp => rw [q4 _ hx, SMap.get?_insert, if_neg hp]
  have hval : ∀ x, valOf m' x = if nkey (P ++ [k]) = x then some h.length else valOf m x := by
    intro x
    rw [← hm', valOf_insert, hse, valOf_insert, q3, valOf_insert, r4]
    split
    next e =>
      subst e
      rw [if_neg (Ne.symm hpk), ← r4, valOf, r2]; rfl
    · rfl
  have hmono0 : Mono m0 m' := by
    have ha : Mono m0 (m0.insert (par P) ⟨v, .keys (insertUniq ks k).1⟩) := by
      refine Mono.insert fun v' l hh => ?_
      rw [r2] at hh; simp at hh; rw [← hh.2]
      exact ⟨_, rfl, fun y hy => mem_insertUniq.mpr (.inl hy)⟩
    have hb : Mono m2 (stdEntry m2 h.length (nkey (P ++ [k]))) := by
      rw [hse]
      refine Mono.insert fun v' l hh => ?_
      rw [g2] at hh
      exact ⟨c, rfl, fun y hy => hnd y ⟨v', l, hh, hy⟩⟩
    have hc : Mono (stdEntry m2 h.length (nkey (P ++ [k]))) m' := by
      rw [← hm']
      refine Mono.insert fun v' l hh => ?_
      rw [g3] at hh; simp at hh; rw [← hh.2]
      exact ⟨_, rfl, fun y hy => mem_insertUniq.mpr (.inl hy)⟩
    exact ((ha.trans q2).trans hb).trans hc
  have hkv : ∀ a, NamesWf a → a ≠ [] → keyHasValue m' (h ++ [.table]) (nkey a) = keyHasValue m0 h (nkey a) := by
    intro a ha hane
    rw [Bool.eq_iff_iff, keyHasValue_eq, keyHasValue_eq]
    constructor
    · rintro ⟨b, h1, h2⟩
      rw [hval] at h1
      split at h1
      next e =>
        simp at h1; subst h1
        simp at h2
      · rw [← r4] at h1
        refine ⟨b, h1, ?_⟩
        rw [r4] at h1
        rwa [List.getElem?_append_left (hm.lt _ b h1)] at h2
    · rintro ⟨b, h1, h2⟩
      rw [r4] at h1
      refine ⟨b, ?_, by rwa [List.getElem?_append_left (hm.lt _ b h1)]⟩
      rw [hval, if_neg, h1]
      intro e
      rw [← e, hv] at h1; simp at h1
  have hfree : ∀ {Q}, NamesWf Q → (Free m' (h ++ [.table]) Q ↔ Free m0 h Q) := fun hQ => Free.congr hQ hkv
  have hparne : ∀ {Q}, NamesWf Q → par Q ≠ [] := by
    intro Q hQ
    unfold par; split
    · simp [root]
    next hP => exact keyOf_ne_nil hQ.path (names_ne hP)
  have hname : ∀ {Q k'}, NamesWf Q → (hasName m' (par Q) k' ↔ (Q = P ∧ k' = k) ∨ hasName m0 (par Q) k') := by
    intro Q k' hQ
    unfold hasName
    rw [hget _ (hparne hQ)]
    split
    next e =>
      have hQe := par_inj hw.left hQ e
      subst hQe
      rw [r2]
      constructor
      · rintro ⟨v', ks', g1, g2⟩
        simp at g1
        rw [← g1.2, mem_insertUniq, mem_insertUniq] at g2
        rcases g2 with (g2 | g2) | g2
        · exact .inr ⟨v, ks, rfl, g2⟩
        · exact .inl ⟨rfl, g2⟩
        · exact .inl ⟨rfl, g2⟩
      · rintro (⟨_, rfl⟩ | ⟨v', ks', g1, g2⟩)
        · exact ⟨v, _, rfl, mem_insertUniq.mpr (.inr rfl)⟩
        · simp at g1
          rw [← g1.2] at g2
          exact ⟨v, _, rfl, mem_insertUniq.mpr (.inl (mem_insertUniq.mpr (.inl g2)))⟩
    next hp =>
      split
      next e =>
        rw [← par_snoc] at e
        have hQe := par_inj hw hQ e
        subst hQe
        rw [par_snoc]
        constructor
        · rintro ⟨v', ks', g1, g2⟩
          simp at g1
          rw [← g1.2] at g2
          exact .inr (hc _ g2)
        · rintro (⟨e, _⟩ | g)
          · simp at e
          · exact ⟨_, _, rfl, hnd _ g⟩
      · constructor
        · exact .inr
        · rintro (⟨rfl, _⟩ | g)
          · exact absurd rfl hp
          · exact g
  refine ⟨_, _, m', ?_, q1, ?_, ⟨fun Q k' hQ hf' hs _ => ?_, fun Q hQ hf' _ => ?_, fun Q k' hQ hf' hn => ?_⟩, hval, r5.trans hmono0, ?_⟩
  · rw [addImplicitTables_nil, hN]; exact r1
  · unfold stdParent
    rw [g3]
    dsimp only
    rw [hm']
  · rw [hname hQ.left]
    by_cases e : Q ++ [k'] = P ++ [k]
    · obtain ⟨e1, e2⟩ := List.append_inj' e rfl
      simp at e2
      exact .inl ⟨e1, e2⟩
    · right
      refine r3.up Q k' hQ ((hfree hQ.left).mp hf') ?_ (by simp)
      rw [hget _ (keyOf_ne_nil hQ.path (names_ne (by simp)))] at hs
      split at hs
      next e2 =>
        have e2' : par P = nkey (Q ++ [k']) := e2
        rw [← e2', r2]; simp
      · rw [if_neg (fun h => e (nkey_inj hQ hw h.symm))] at hs
        exact hs
  · intro hv' e
    rw [hget _ (hparne hQ)] at e
    split at e
    · simp at e; subst e; exact ⟨_, rfl⟩
    · split at e
      · simp at e; subst e; exact ⟨_, rfl⟩
      · exact r3.kind Q hQ ((hfree hQ).mp hf') (by simp) hv' e
  · rcases (hname hQ).mp hn with ⟨rfl, rfl⟩ | hn
    · refine ⟨hw _ (by simp), ?_⟩
      rw [hget _ hkne, if_neg hpk, if_pos rfl]; simp
    · obtain ⟨d1, d2⟩ := r3.down Q k' hQ ((hfree hQ).mp hf') hn
      exact ⟨d1, hmono0.some _ d2⟩
  · rw [hget _ hkne, if_neg hpk, if_pos rfl]; simp

end Tomllib
