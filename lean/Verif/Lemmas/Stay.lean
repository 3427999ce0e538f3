import Verif.Lemmas.Stop
/-!
# Lines without arrays of tables change no value that is there
-/

namespace Tomllib

/-- Values stay, except that tables with a header may become tables without one. -/
def ValsStay (h : Heap) (m m' : KMap) : Prop := ∀ x (a : Nat), valOf m x = some a → (∃ c, h[a]? = some c ∧ c ≠ .table) → valOf m' x = some a

theorem ValsStay.refl (h : Heap) (m : KMap) : ValsStay h m m := fun _ _ hx _ => hx
theorem ValsStay.trans {h : Heap} {m m' m'' : KMap} (a : ValsStay h m m') (b : ValsStay h m' m'') : ValsStay h m m'' :=
  fun x v hv hc => b x v (a x v hv hc) hc
theorem ValsStay.shrink {h l : Heap} {m m' : KMap} (a : ValsStay (h ++ l) m m') : ValsStay h m m' := by
  intro x v hv ⟨c, hc, hn⟩
  refine a x v hv ⟨c, ?_, hn⟩
  rw [List.getElem?_append_left (List.getElem?_eq_some_iff.mp hc).1]; exact hc
theorem Kept.stay {m m' : KMap} (hk : Kept m m') (h : Heap) : ValsStay h m m' := fun x a hx _ => hk.vals x a hx

theorem ValsStay.kids (h : Heap) {m : KMap} {k : Str} {v : Option Addr} {c c' : Children} (hg : m.get? k = some ⟨v, c⟩) : ValsStay h m (m.insert k ⟨v, c'⟩) := by
  intro x a hx _
  rw [valOf_insert]
  split
  next e => subst e; simpa [valOf, hg] using hx
  · exact hx

theorem ValsStay.free {h : Heap} {m : KMap} {k : Str} (hf : keyHasValue m h k = false) (hv : HashValue) : ValsStay h m (m.insert k hv) := by
  intro x a hx ⟨c, hc, hn⟩
  rw [valOf_insert]
  split
  next e =>
    subst e
    obtain ⟨cs, hg⟩ := valOf_some.mp hx
    simp [keyHasValue, hg, hc] at hf
    exact absurd hf hn
  · exact hx

/-- A key without a value other than a table stays so. -/
def FreeStay (h : Heap) (m m' : KMap) : Prop := ∀ x, keyHasValue m h x = false → keyHasValue m' h x = false

theorem FreeStay.refl (h : Heap) (m : KMap) : FreeStay h m m := fun _ hx => hx
theorem FreeStay.trans {h : Heap} {m m' m'' : KMap} (a : FreeStay h m m') (b : FreeStay h m' m'') : FreeStay h m m'' := fun x hx => b x (a x hx)

theorem keyHasValue_valOf (m : KMap) (h : Heap) (k : Str) : keyHasValue m h k = match valOf m k with
    | some a => decide (h[a]? ≠ some .table)
    | none => false := by
  unfold keyHasValue valOf
  cases m.get? k with
  | none => rfl
  | some hv =>
    obtain ⟨v, c⟩ := hv
    cases v <;> simp

theorem FreeStay.kids (h : Heap) {m : KMap} {k : Str} {v : Option Addr} {c c' : Children} (hg : m.get? k = some ⟨v, c⟩) : FreeStay h m (m.insert k ⟨v, c'⟩) := by
  intro x hx
  rw [keyHasValue_valOf] at hx ⊢
  rw [valOf_insert]
  by_cases e : k = x
  · subst e; simpa [valOf, hg] using hx
  · rw [if_neg e]; exact hx

theorem FreeStay.none (h : Heap) (m : KMap) (k : Str) (c : Children) : FreeStay h m (m.insert k ⟨.none, c⟩) := by
  intro x hx
  rw [keyHasValue_valOf] at hx ⊢
  rw [valOf_insert]
  by_cases e : k = x
  · rw [if_pos e]
  · rw [if_neg e]; exact hx

/-- The keys on the way to the last name have no values of their own. -/
def FreePath (m : KMap) (h : Heap) : List Str → Str → Prop
  | k :: k' :: ks, fk => keyHasValue m h (fk ++ k) = false ∧ FreePath m h (k' :: ks) (fk ++ k ++ lit% ".")
  | _, _ => True

theorem FreePath.mono {m m' : KMap} {h : Heap} (hs : FreeStay h m m') : ∀ {ks : List Str} {fk : Str}, FreePath m h ks fk → FreePath m' h ks fk
  | [], _, _ => trivial
  | [_], _, _ => trivial
  | _ :: k' :: ks, _, ⟨h1, h2⟩ => ⟨hs _ h1, FreePath.mono hs (ks := k' :: ks) h2⟩

theorem stdKeyInner_free (m : KMap) (h : Heap) : ∀ (ks : List Str) (fk : Str) (v : Bool) (pk : Str), (∀ k ∈ ks, k ≠ root) →
    (stdKeyInner m h ks fk v pk).2.1 = true → v = true ∧ FreePath m h ks fk
  | [], _, _, _, _, e => ⟨e, trivial⟩
  | [_], _, _, _, _, e => ⟨e, trivial⟩
  | k :: k' :: ks, fk, v, pk, hr, e => by
    rw [stdKeyInner, if_neg (hr k (by simp))] at e
    have := stdKeyInner_free m h (k' :: ks) _ _ _ (fun x hx => hr x (by simp_all)) e
    simp only [Bool.and_eq_true, Bool.not_eq_true'] at this
    exact ⟨this.1.1, this.1.2, this.2⟩

/-- What stands before the names below a key. -/
def preOf (lk : Str) : Str := if lk = root then [] else lk ++ lit% "."

theorem preOf_next {lk k : Str} : (if lk ≠ root then lk ++ lit% "." ++ k else k) = preOf lk ++ k := by
  unfold preOf; split <;> simp_all

theorem preOf_ne_root {lk k : Str} (hk : k ≠ root) : preOf lk ++ k ≠ root := by
  unfold preOf
  split
  · simpa using hk
  · intro e
    have : '.' ∈ root := by rw [← e]; simp
    simp [root] at this

theorem implicitLoop_stay (h : Heap) : ∀ (ks : List Str) {m m' : KMap} {lk : Str} {first : Bool}, (∀ k ∈ ks, k ≠ root) → FreePath m h ks (preOf lk) →
    implicitLoop ks m lk first = .ok m' → ValsStay h m m' ∧ FreeStay h m m'
  | [], m, m', _, _, _, _, e => by
    simp [implicitLoop] at e; subst e; exact ⟨.refl _ _, .refl _ _⟩
  | k :: ks, m, m', lk, first, hr, hf, e => by
    have key : ∀ (m1 : KMap) (ins f : Bool), ValsStay h m m1 → FreeStay h m m1 → (if ks = [] then Out.ok m1
          else implicitLoop ks (if ins then m1.insert (if lk ≠ root then lk ++ lit% "." ++ k else k) ⟨none, .keys []⟩ else m1)
            (if lk ≠ root then lk ++ lit% "." ++ k else k) f) = .ok m' → ValsStay h m m' ∧ FreeStay h m m' := by
      intro m1 ins f h1 h1' h2
      split at h2
      · simp at h2; subst h2; exact ⟨h1, h1'⟩
      next hne =>
        rw [preOf_next] at h2
        cases ks with
        | nil => exact absurd rfl hne
        | cons k' ks =>
          obtain ⟨f1, f2⟩ := hf.mono h1'
          have hne' : preOf lk ++ k ≠ root := preOf_ne_root (hr k (by simp))
          have hp : preOf (preOf lk ++ k) = preOf lk ++ k ++ lit% "." := by
            rw [show preOf (preOf lk ++ k) = _ from if_neg hne']
          have hk' : ∀ x ∈ k' :: ks, x ≠ root := fun x hx => hr x (by simp_all)
          rw [← hp] at f2
          split at h2
          · have hs := ValsStay.free f1 ⟨none, .keys []⟩
            have hs' := FreeStay.none h m1 (preOf lk ++ k) (.keys [])
            obtain ⟨g1, g2⟩ := implicitLoop_stay h (k' :: ks) hk' (f2.mono hs') h2
            exact ⟨(h1.trans hs).trans g1, (h1'.trans hs').trans g2⟩
          · obtain ⟨g1, g2⟩ := implicitLoop_stay h (k' :: ks) hk' f2 h2
            exact ⟨h1.trans g1, h1'.trans g2⟩
    unfold implicitLoop at e
    cases hg : m.get? lk with
    | none =>
      rw [hg] at e
      exact key m false first (.refl h m) (.refl h m) e
    | some hv =>
      rw [hg] at e
      obtain ⟨v, c⟩ := hv
      cases c with
      | keys names => exact key _ _ _ (.kids h hg) (.kids h hg) e
      | count c =>
        cases first with
        | true => exact key _ true false (.kids h (c' := .count (c + 1)) hg) (.kids h hg) e
        | false => simp at e

/-! ## The stack of headers -/

/-- An array of tables. -/
def TableType.isArr : TableType → Prop
  | .arr _ => True
  | .std _ => False

/-- The key of a table below the arrays of tables on the stack is looked up below their key. -/
theorem arrayTableKeyLoop_below (m : KMap) (h : Heap) (t : Table) (i : Nat) : ∀ (ts : List TableType) (is : List Nat) (fk : Str) (pe : Nat) (v : Bool) (pk : Str),
    ts ≠ [] → (∀ x ∈ ts, x.isArr) → ts.length = is.length → ∀ {v1 : Bool} {f1 p1 : Str}, arrayTableKeyLoop m h ts is fk pe v pk = .ok (v1, f1, p1) →
    arrayTableKeyLoop m h (ts ++ [.std t]) (is ++ [i]) fk pe v pk =
      arrayTableKeyLoop m h [.std t] [i] (f1 ++ lit% ".") (((ts.getLast?.map (·.table.keys.length)).getD 0) + 1) v1 pk ∧ f1 ≠ root
  | [], _, _, _, _, _, hn, _, _, _, _, _, _ => absurd rfl hn
  | _ :: _, [], _, _, _, _, _, _, hl, _, _, _, _ => by simp at hl
  | .std _ :: _, _ :: _, _, _, _, _, _, ha, _, _, _, _, _ => absurd (ha _ (List.mem_cons_self ..)) id
  | [.arr t'], idx :: is, fk, pe, v, pk, _, _, hl, v1, f1, p1, e => by
    simp at hl
    subst hl
    simp only [arrayTableKeyLoop, Out.bind_eq] at e
    obtain ⟨fk1, h1, e⟩ := Out.bind_ok.mp e
    obtain ⟨ix, h2, e⟩ := Out.bind_ok.mp e
    simp only [ne_eq, not_true_eq_false, if_false, Out.ok.injEq, Prod.mk.injEq] at e
    obtain ⟨rfl, rfl, rfl⟩ := e
    refine ⟨?_, ?_⟩
    · rw [List.singleton_append, List.singleton_append, arrayTableKeyLoop]
      simp only [Out.bind_eq, h1, h2, Out.bind, ne_eq, List.cons_ne_nil, not_false_eq_true, if_true]
      simp [idxStr, TableType.table, lastKeys]
    · intro e
      have : ']' ∈ root := by rw [← e]; simp [idxStr]
      simp [root] at this
  | .arr t' :: t2 :: ts, idx :: is, fk, pe, v, pk, _, ha, hl, v1, f1, p1, e => by
    cases is with
    | nil => simp at hl
    | cons i2 is =>
      rw [arrayTableKeyLoop] at e
      simp only [Out.bind_eq] at e
      obtain ⟨fk1, h1, e⟩ := Out.bind_ok.mp e
      obtain ⟨ix, h2, e⟩ := Out.bind_ok.mp e
      simp only [ne_eq, List.cons_ne_nil, not_false_eq_true, if_true] at e
      have := arrayTableKeyLoop_below m h t i (t2 :: ts) (i2 :: is) _ _ _ _ (by simp) (fun x hx => ha x (by simp_all)) (by simpa using hl) e
      refine ⟨?_, this.2⟩
      have hs : arrayTableKeyLoop m h (.arr t' :: (t2 :: ts ++ [.std t])) (idx :: (i2 :: is ++ [i])) fk pe v pk =
          arrayTableKeyLoop m h (t2 :: ts ++ [.std t]) (i2 :: is ++ [i]) (fk1 ++ (lastKeys t').getLastD [] ++ lit% "[" ++ natStr ix ++ lit% "].") (lastKeys t').length
            (arrTableValid m (fk1 ++ (lastKeys t').getLastD []) v) pk := by
        rw [arrayTableKeyLoop]
        simp only [Out.bind_eq, h1, h2, Out.bind]
        rw [if_pos (by simp)]
      show arrayTableKeyLoop m h (.arr t' :: (t2 :: ts ++ [.std t])) (idx :: (i2 :: is ++ [i])) fk pe v pk = _
      rw [hs, this.1, List.getLast?_cons_cons]

/-- Looking up the key of a table: if there is no objection, the keys on the way have no values of their own. -/
theorem stdStep_free {m : KMap} {h : Heap} {t : Table} {i : Nat} {fk pk : Str} {pe : Nat} {v v' : Bool} {f p : Str} {ks : List Str}
    (hk : (lastKeys t).drop pe = ks ∨ (lastKeys t).drop pe = root :: ks ∧ ks ≠ []) (hr : ∀ k ∈ ks, k ≠ root)
    (e : arrayTableKeyLoop m h [.std t] [i] fk pe v pk = .ok (v', f, p)) (hv : v' = true) :
    v = true ∧ FreePath m h ks fk ∧ keyHasValue m h f = false := by
  simp only [arrayTableKeyLoop, Out.ok.injEq, Prod.mk.injEq] at e
  obtain ⟨e1, e2, _⟩ := e
  rw [hv, Bool.and_eq_true, Bool.not_eq_true', e2] at e1
  have : stdKeyInner m h ((lastKeys t).drop pe) fk v pk = stdKeyInner m h ks fk v pk := by
    rcases hk with hk | ⟨hk, hne⟩
    · rw [hk]
    · rw [hk]
      cases ks with
      | nil => exact absurd rfl hne
      | cons k ks => rw [stdKeyInner, if_pos rfl]
  rw [this] at e1
  obtain ⟨a, b⟩ := stdKeyInner_free m h ks fk v pk hr e1.1
  exact ⟨a, b, e1.2⟩

theorem addImplicitTables_stay {m m' : KMap} {h : Heap} {ts : List TableType} {is : List Nat} {t : Table} {f p : Str} (ha : ∀ x ∈ ts, x.isArr) (hl : ts.length = is.length)
    (hw : (TableType.std t).wf) (hk : getArrayTableKey m h (ts ++ [.std t]) (is ++ [0]) = .ok (true, f, p)) (e : addImplicitTables m h ts is (.std t) = .ok m') :
    ValsStay h m m' ∧ FreeStay h m m' ∧ keyHasValue m h f = false := by
  have hr : ∀ (n : Nat), ∀ k ∈ (t.keys.map (·.key)).drop n, k ≠ root := by
    intro n k hk
    obtain ⟨y, hy, rfl⟩ := List.mem_map.mp (List.mem_of_mem_drop hk)
    exact (hw.2 y hy).2.ne_root
  have hne : t.keys.map (·.key) ≠ [] := by simpa [TableType.table] using hw.1
  simp only [addImplicitTables, Out.bind_eq] at e
  obtain ⟨⟨v, lk, pk⟩, e1, e⟩ := Out.bind_ok.mp e
  unfold getArrayTableKey at hk e1
  by_cases hts : ts = []
  · subst hts
    obtain rfl : is = [] := by simpa using hl.symm
    simp only [arrayTableKeyLoop, Out.ok.injEq, Prod.mk.injEq] at e1
    obtain ⟨rfl, rfl, rfl⟩ := e1
    simp only [Bool.not_true, Bool.false_eq_true, if_false, List.getLast?_nil, List.nil_append, if_true, Nat.sub_self, List.drop_zero, TableType.table] at e
    have hr0 : ∀ k ∈ t.keys.map (·.key), k ≠ root := hr 0
    obtain ⟨_, g2, g3⟩ := stdStep_free (t := t) (.inr ⟨rfl, hne⟩) hr0 hk rfl
    obtain ⟨k1, k2⟩ := implicitLoop_stay h _ (hr 0) (by rw [show preOf root = [] from rfl]; exact g2) e
    exact ⟨k1, k2, g3⟩
  · obtain ⟨h1, h2⟩ := arrayTableKeyLoop_below m h t 0 ts is [] 0 true root hts ha hl e1
    rw [h1] at hk
    cases hlast : ts.getLast? with
    | none => exact absurd (List.getLast?_eq_none_iff.mp hlast) hts
    | some l =>
      simp only [hlast, Option.map_some, Option.getD_some] at hk e
      obtain ⟨rfl, g2, g3⟩ := stdStep_free (ks := (t.keys.map (·.key)).drop l.table.keys.length) (.inl rfl) (hr _) hk rfl
      simp only [Bool.not_true, Bool.false_eq_true, if_false, if_neg h2, TableType.table] at e
      obtain ⟨k1, k2⟩ := implicitLoop_stay h _ (hr _) (by rw [show preOf lk = _ from if_neg h2]; exact g2) e
      exact ⟨k1, k2, g3⟩

theorem addToTableSet_stay (h : Heap) {m m' : KMap} {ts : List TableType} {is : List Nat} {k : Str} (e : addToTableSet m ts is k = .ok m') :
    ValsStay h m m' ∧ FreeStay h m m' := by
  simp only [addToTableSet, Out.bind_eq] at e
  obtain ⟨pk, _, e⟩ := Out.bind_ok.mp e
  split at e
  next hg => simp at e; subst e; exact ⟨.kids h hg, .kids h hg⟩
  · simp at e; subst e; exact ⟨.refl _ _, .refl _ _⟩

theorem stdParent_stay (h : Heap) {m m' : KMap} {pk nm : Str} (e : stdParent m pk nm = .ok m') : ValsStay h m m' := by
  unfold stdParent at e
  split at e
  next hg => simp at e; subst e; exact .kids h hg
  · simp at e
  · simp at e; subst e; exact .refl h _

theorem stdEntry_stay {h : Heap} {m : KMap} {k : Str} (hf : keyHasValue m h k = false) (a : Addr) : ValsStay h m (stdEntry m a k) := by
  unfold stdEntry
  split <;> exact .free hf _

/-! ## The headers of the stack below its top -/

/-- Below the top of the stack there are arrays of tables only. -/
def Flat (ts : List TableType) : Prop := ∀ x ∈ ts.dropLast, x.isArr

theorem mem_dropLast {α : Type} {x : α} {l : List α} (h : x ∈ l.dropLast) : x ∈ l := (List.dropLast_sublist l).subset h

theorem Flat.all {ts : List TableType} (h : Flat ts) (ht : isTopStd ts = false) : ∀ x ∈ ts, x.isArr := by
  intro x hx
  have hne : ts ≠ [] := by rintro rfl; simp at hx
  rw [← List.dropLast_concat_getLast hne, List.mem_append, List.mem_singleton] at hx
  rcases hx with hx | rfl
  · exact h x hx
  · have hl := List.getLast?_eq_some_getLast hne
    unfold isTopStd at ht
    rw [hl] at ht
    cases hg : ts.getLast hne with
    | std t => rw [hg] at ht; simp at ht
    | arr t => trivial

theorem Flat.pop {ts : List TableType} (h : Flat ts) (b : Bool) : ∀ x ∈ (if isTopStd ts || b then ts.dropLast else ts), x.isArr := by
  split
  · exact h
  next hb => exact h.all (by simp at hb; exact hb.1)

theorem popLoop_mem (stop : TableType → Bool) : ∀ (n : Nat) (ts : List TableType) (is : List Nat), ∀ x ∈ (popLoop stop n ts is).1, x ∈ ts
  | 0, _, _, _, hx => hx
  | n + 1, ts, is, x, hx => by
    rw [popLoop] at hx
    split at hx
    · exact hx
    · split at hx
      · exact hx
      · exact mem_dropLast (popLoop_mem stop n _ _ x hx)

theorem popLoop_len (stop : TableType → Bool) : ∀ (n : Nat) (ts : List TableType) (is : List Nat), ts.length = is.length → (popLoop stop n ts is).1.length = (popLoop stop n ts is).2.length
  | 0, _, _, h => h
  | n + 1, ts, is, h => by
    rw [popLoop]
    split
    · exact h
    · split
      · exact h
      · exact popLoop_len stop n _ _ (by simp [h])

theorem stdPop_eq (t : TableType) (ts : List TableType) (is : List Nat) : ∃ b, (b = (isTopStd ts || equalKeyLength t ts)) ∧
    (stdPop t ts is = (if b then ts.dropLast else ts, if b then is.dropLast else is) ∨
      stdPop t ts is = popLoop (fun top => t.isSubtableOf top) (if b then ts.dropLast else ts).length (if b then ts.dropLast else ts) (if b then is.dropLast else is)) := by
  refine ⟨_, rfl, ?_⟩
  unfold stdPop
  generalize (isTopStd ts || equalKeyLength t ts) = b
  dsimp only
  generalize (if b = true then ts.dropLast else ts) = ts'
  generalize (if b = true then is.dropLast else is) = is'
  split
  · exact .inl rfl
  · exact .inr rfl

theorem stdPop_flat {t : TableType} {ts : List TableType} (is : List Nat) (h : Flat ts) : ∀ x ∈ (stdPop t ts is).1, x.isArr := by
  obtain ⟨b, hb, e⟩ := stdPop_eq t ts is
  have hp := h.pop (equalKeyLength t ts)
  rw [← hb] at hp
  rcases e with e | e <;> rw [e]
  · exact hp
  · intro x hx
    exact hp x (popLoop_mem _ _ _ _ x hx)

theorem stdPop_len {t : TableType} {ts : List TableType} {is : List Nat} (h : ts.length = is.length) : (stdPop t ts is).1.length = (stdPop t ts is).2.length := by
  obtain ⟨b, _, e⟩ := stdPop_eq t ts is
  have : (if b then ts.dropLast else ts).length = (if b then is.dropLast else is).length := by split <;> simp [h]
  rcases e with e | e <;> rw [e]
  · exact this
  · exact popLoop_len _ _ _ _ this

theorem Flat.of_all {ts : List TableType} (h : ∀ x ∈ ts, x.isArr) : Flat ts := fun x hx => h x (mem_dropLast hx)

/-- A header of a table changes no value that is there. -/
theorem stdTableAct_stay {t : Table} (hw : (TableType.std t).wf) {st st' : PState} {tt : TableType} (hf : Flat st.lastArrayTables)
    (hl : st.lastArrayTables.length = st.lastArrayTablesIndex.length) (e : stdTableAct t st = .ok (st', tt)) :
    ValsStay st.heap st.map st'.map ∧ Flat st'.lastArrayTables := by
  simp only [stdTableAct, Out.bind_eq] at e
  split at e
  · simp at e
  · have ha := stdPop_flat (t := .std t) st.lastArrayTablesIndex hf
    have hl' := stdPop_len (t := .std t) hl
    generalize stdPop (.std t) st.lastArrayTables st.lastArrayTablesIndex = p at e ha hl'
    obtain ⟨⟨err, tk, pk⟩, h1, e⟩ := Out.bind_ok.mp e
    dsimp only at e
    split at e
    · obtain ⟨_, _, e⟩ := Out.bind_ok.mp e
      simp at e; rw [← e.1]
      exact ⟨.refl _ _, .of_all ha⟩
    next herr =>
      obtain ⟨m1, e1, e⟩ := Out.bind_ok.mp e
      obtain ⟨m2, e2, e⟩ := Out.bind_ok.mp e
      obtain ⟨m3, e3, e⟩ := Out.bind_ok.mp e
      simp at e; rw [← e.1]
      refine ⟨?_, ?_⟩
      · have hk : getArrayTableKey st.map st.heap (p.1 ++ [.std t]) (p.2 ++ [0]) = .ok (true, tk, pk) := by
          simp only [stdCheck, Out.bind_eq] at h1
          split at h1
          · simp at h1; exact absurd h1.1 herr
          · obtain ⟨⟨v, a, b⟩, g1, h1⟩ := Out.bind_ok.mp h1
            obtain ⟨bad, g2, h1⟩ := Out.bind_ok.mp h1
            simp at h1
            obtain ⟨h3, rfl, rfl⟩ := h1
            cases v with
            | true => exact g1
            | false => simp at g2; subst g2; simp at h3; exact absurd h3 herr
        obtain ⟨a1, a2, a3⟩ := addImplicitTables_stay ha hl' hw hk e1
        obtain ⟨b1, b2⟩ := addToTableSet_stay st.heap e2
        exact ((a1.trans b1).trans (stdEntry_stay (b2 _ (a2 _ a3)) _)).trans (stdParent_stay _ e3)
      · intro x hx
        rw [show (p.1 ++ [TableType.std t]).dropLast = p.1 by simp] at hx
        exact ha x hx

theorem arrPush_flat {m : KMap} {h : Heap} {t : Table} {ts : List TableType} {is : List Nat} {x : KMap × List TableType × List Nat} (ha : ∀ x ∈ ts, x.isArr)
    (e : arrPush m h (.arr t) ts is = .ok x) : ∀ y ∈ x.2.1, y.isArr := by
  simp only [arrPush, Out.bind_eq] at e
  obtain ⟨m1, e1, e⟩ := Out.bind_ok.mp e
  simp at e; subst e
  intro y hy
  simp at hy
  rcases hy with hy | rfl
  · exact ha y hy
  · trivial

theorem arrNext_flat {m : KMap} {ts : List TableType} {is : List Nat} {x : KMap × List TableType × List Nat} (ha : ∀ x ∈ ts, x.isArr)
    (e : arrNext m ts is = .ok x) : ∀ y ∈ x.2.1, y.isArr := by
  simp only [arrNext, Out.bind_eq] at e
  obtain ⟨⟨m1, is1⟩, e1, e⟩ := Out.bind_ok.mp e
  simp at e; subst e; exact ha

theorem arrayTableAct_flat {t : Table} {st st' : PState} {tt : TableType} (hf : Flat st.lastArrayTables) (e : arrayTableAct t st = .ok (st', tt)) :
    Flat st'.lastArrayTables := by
  simp only [arrayTableAct, Out.bind_eq] at e
  split at e
  · simp at e
  · have ha := hf.pop false
    rw [Bool.or_false] at ha
    obtain ⟨⟨m1, ts1, is1⟩, e1, e⟩ := Out.bind_ok.mp e
    have h1 : ∀ y ∈ ts1, y.isArr := by
      generalize (if isTopStd st.lastArrayTables = true then st.lastArrayTables.dropLast else st.lastArrayTables) = ts at e1 ha
      generalize (if isTopStd st.lastArrayTables = true then st.lastArrayTablesIndex.dropLast else st.lastArrayTablesIndex) = is at e1
      unfold arrPlace at e1
      split at e1
      · exact arrPush_flat ha e1
      · split at e1
        · exact arrNext_flat ha e1
        · split at e1
          · exact arrPush_flat ha e1
          · dsimp only at e1
            have hp := fun x hx => ha x (popLoop_mem (fun top => decide (TableType.keyStr (.arr t) = top.keyStr)) ts.length ts is x hx)
            split at e1
            · exact arrNext_flat hp e1
            · simp only [arrAgain, Out.bind_eq] at e1
              obtain ⟨⟨m2, ts2, is2⟩, e2, e1⟩ := Out.bind_ok.mp e1
              obtain ⟨pk, _, e1⟩ := Out.bind_ok.mp e1
              have h2 := arrPush_flat hp e2
              dsimp only at e1
              split at e1
              · exact arrNext_flat h2 e1
              · simp at e1; rw [← e1.2.1]; exact h2
    obtain ⟨⟨a, b, c⟩, _, e⟩ := Out.bind_ok.mp e
    dsimp only at e
    split at e <;> · simp at e; rw [← e.1]; exact .of_all h1

/-! ## Lines -/

theorem ET.eff_flat {e : ET} {st st' : PState} (hf : Flat st.lastArrayTables) (h : e.eff st = .ok st') : Flat st'.lastArrayTables := by
  cases e with
  | blank => simp [ET.eff] at h; subst h; exact hf
  | comment => simp [ET.eff] at h; subst h; exact hf
  | kv _ k _ v _ _ =>
    obtain ⟨s1, h1, h2⟩ := Out.bind_ok.mp h
    have a := (VT.eff_frame h1).tables
    have b := (keyvalAct_frame h2).2.tables
    have b' : st'.lastArrayTables = s1.lastArrayTables := b
    rw [b', a]; exact hf
  | table _ t _ _ =>
    cases t with
    | std t =>
      obtain ⟨⟨s, tt⟩, h1, h2⟩ := Out.bind_ok.mp h
      simp at h2; subst h2
      simp only [stdTableAct, Out.bind_eq] at h1
      split at h1
      · simp at h1
      · have ha := stdPop_flat (t := .std t) (st.pushKs (t.keys.map (·.key))).lastArrayTablesIndex (ts := (st.pushKs (t.keys.map (·.key))).lastArrayTables) hf
        generalize stdPop (.std t) _ _ = p at h1 ha
        obtain ⟨⟨err, tk, pk⟩, _, h1⟩ := Out.bind_ok.mp h1
        dsimp only at h1
        split at h1
        · obtain ⟨_, _, h1⟩ := Out.bind_ok.mp h1
          simp at h1; rw [← h1.1]
          exact .of_all ha
        · obtain ⟨m1, _, h1⟩ := Out.bind_ok.mp h1
          obtain ⟨m2, _, h1⟩ := Out.bind_ok.mp h1
          obtain ⟨m3, _, h1⟩ := Out.bind_ok.mp h1
          simp at h1; rw [← h1.1]
          intro x hx
          rw [show (p.1 ++ [TableType.std t]).dropLast = p.1 by simp] at hx
          exact ha x hx
    | arr t =>
      obtain ⟨⟨s, tt⟩, h1, h2⟩ := Out.bind_ok.mp h
      simp at h2; subst h2
      exact arrayTableAct_flat (st := st.pushKs _) hf h1

theorem linesEff_flat : ∀ {ls : List (Str × ET)} {st st' : PState} {ns : List NLExpression}, Flat st.lastArrayTables → linesEff ls st = .ok (st', ns) →
    Flat st'.lastArrayTables
  | [], st, st', ns, hf, h => by simp [linesEff] at h; rw [← h.1]; exact hf
  | (nl, e) :: ls, st, st', ns, hf, h => by
    rw [linesEff] at h
    obtain ⟨s1, h1, h⟩ := Out.bind_ok.mp h
    obtain ⟨⟨s2, n2⟩, h2, h⟩ := Out.bind_ok.mp h
    simp at h
    obtain ⟨rfl, _⟩ := h
    exact linesEff_flat (ET.eff_flat (st := st.lines (nlCount nl)) hf h1) h2

theorem PV.eff_tables : ∀ (t : PV) {st st' : PState}, t.eff st = .ok st' → st'.lastArrayTables = st.lastArrayTables
  | .nothing, st, st', h => by simp [PV.eff] at h; subst h; rfl
  | .val t, st, st', h => (VT.eff_frame h).tables
  | .arr _ es last, st, st', h => by
    simp only [PV.eff, Out.bind_ok] at h
    obtain ⟨s1, h1, s2, h2, h3⟩ := h
    simp at h3; subst h3
    have a : s1.lastArrayTables = st.lastArrayTables := (Elems.eff_frame h1).tables
    exact (PV.eff_tables last h2).trans a
  | .itab _ kvs, st, st', h => (Pairs.eff_frame h).tables
  | .itabK _ kvs k, st, st', h => by
    simp only [PV.eff, Out.bind_ok] at h
    obtain ⟨s1, h1, h3⟩ := h
    simp at h3; subst h3
    exact (Pairs.eff_frame h1).tables
  | .itabKV _ kvs k _ last, st, st', h => by
    simp only [PV.eff, Out.bind_ok] at h
    obtain ⟨s1, h1, h2⟩ := h
    exact (PV.eff_tables last h2).trans (Pairs.eff_frame h1).tables

theorem PX.eff_tables {px : PX} (ho : px.opened) {st st' : PState} (h : px.eff st = .ok st') : st'.lastArrayTables = st.lastArrayTables := by
  cases px with
  | nothing => simp [PX.eff] at h; subst h; rfl
  | header txt ks => simp [PX.eff] at h; subst h; rfl
  | key k => simp [PX.eff] at h; subst h; rfl
  | kv k s last => exact PV.eff_tables last (st := st.pushK k) h
  | pair => exact ho.elim
  | table => exact ho.elim

theorem parse_opened {p p' : Parser} {i : Str} {r : ParseResult} (h : p.parse i = .ok (p', r)) : ∃ ls px st1, Parsed p i p' r ls px st1 ∧ px.opened := by
  have hs := toml_spec p.st i
  unfold Parser.parse at h
  generalize toml p.st i = o at hs h
  cases hs with
  | done ls px nodes r0 r' st1 st2 h1 h2 h3 h4 h5 h6 h7 h8 =>
    dsimp only at h
    have : p' = ⟨⟨nodes⟩, st2, r0⟩ ∧ r = resultOf p.leftover st2 r0 := by
      unfold resultOf
      split at h <;> split at h <;> simp at h <;> simp_all
    obtain ⟨rfl, rfl⟩ := this
    exact ⟨ls, px, st1, ⟨h1, h2, h3, h4, ⟨r', h5⟩, h6, h7, rfl⟩, h8⟩
  | abort ls' nl w px nodes r st1 e _ _ _ _ _ h1 h2 =>
    cases e <;> simp [Abort.out] at h

theorem setValue_tables {p p' : Parser} {k : Str} {v : Value} {b : Bool} (h : p.setValue k v = .ok (p', b)) : p'.st.lastArrayTables = p.st.lastArrayTables := by
  unfold Parser.setValue at h
  split at h
  · split at h
    · rw [Out.bind_eq] at h
      obtain ⟨h', _, h⟩ := Out.bind_ok.mp h
      simp at h; rw [← h.1]
    · rw [Out.bind_eq] at h
      obtain ⟨subs, _, h⟩ := Out.bind_ok.mp h
      dsimp only at h
      rw [Out.bind_eq] at h
      obtain ⟨⟨y, nv⟩, _, h⟩ := Out.bind_ok.mp h
      dsimp only at h
      split at h
      · simp at h; rw [← h.1]
      · rw [Out.bind_eq] at h
        obtain ⟨h1, _, h⟩ := Out.bind_ok.mp h
        rw [Out.bind_eq] at h
        obtain ⟨h2, _, h⟩ := Out.bind_ok.mp h
        simp at h; rw [← h.1]
      · rw [Out.bind_eq] at h
        obtain ⟨h1, _, h⟩ := Out.bind_ok.mp h
        rw [Out.bind_eq] at h
        obtain ⟨h2, _, h⟩ := Out.bind_ok.mp h
        simp at h; rw [← h.1]
      · simp at h
  · simp at h; rw [← h.1]

theorem Reachable.flat {p : Parser} (h : Reachable p) : Flat p.st.lastArrayTables := by
  induction h with
  | new => intro x hx; simp [Parser.new, PState.new] at hx
  | parse _ h ih =>
    obtain ⟨ls, px, st1, hp, ho⟩ := parse_opened h
    rw [PX.eff_tables ho hp.pxeff]
    exact linesEff_flat ih hp.eff
  | set _ h ih => rw [setValue_tables h]; exact ih
  | @children q k c _ h ih =>
    have : (q.putChildren k c).st.lastArrayTables = q.st.lastArrayTables := by
      unfold Parser.putChildren
      dsimp only
      split
      · split <;> rfl
      · rfl
    rw [this]; exact ih

/-- A line that is not a header of an array of tables. -/
def ET.plain : ET → Prop
  | .table _ (.arr _) _ _ => False
  | _ => True

theorem ET.eff_stay {e : ET} (hw : e.wf) (hp : e.plain) {st st' : PState} (hi : Inv st) (hf : Flat st.lastArrayTables) (h : e.eff st = .ok st') :
    ValsStay st.heap st.map st'.map := by
  cases e with
  | blank => simp [ET.eff] at h; subst h; exact .refl _ _
  | comment => simp [ET.eff] at h; subst h; exact .refl _ _
  | kv _ k _ v _ _ =>
    obtain ⟨s1, h1, h2⟩ := Out.bind_ok.mp h
    have a : Kept (st.pushK k).map s1.map := VT.eff_kept v h1
    exact (a.trans (keyvalAct_kept h2)).stay _
  | table _ t _ _ =>
    cases t with
    | arr t => exact hp.elim
    | std t =>
      obtain ⟨⟨s, tt⟩, h1, h2⟩ := Out.bind_ok.mp h
      simp at h2; subst h2
      exact (stdTableAct_stay hw.2.1 (st := st.pushKs _) hf hi.stack h1).1

theorem linesEff_stay : ∀ {ls : List (Str × ET)} {st st' : PState} {ns : List NLExpression}, (∀ l ∈ ls, l.2.wf ∧ l.2.plain) → Inv st → Flat st.lastArrayTables →
    linesEff ls st = .ok (st', ns) → ValsStay st.heap st.map st'.map
  | [], st, st', ns, _, _, _, h => by simp [linesEff] at h; rw [← h.1]; exact .refl _ _
  | (nl, e) :: ls, st, st', ns, hw, hi, hf, h => by
    rw [linesEff] at h
    obtain ⟨s1, h1, h⟩ := Out.bind_ok.mp h
    obtain ⟨⟨s2, n2⟩, h2, h⟩ := Out.bind_ok.mp h
    simp at h
    obtain ⟨rfl, _⟩ := h
    have hi1 := hi.linesN (nlCount nl)
    have hi2 : Inv s1 := (h1 ▸ ET.eff_all e hi1 : Keeps (Out.ok s1))
    obtain ⟨l1, f1, a1, _⟩ := ET.eff_rep h1
    have a := ET.eff_stay (hw (nl, e) (by simp)).1 (hw (nl, e) (by simp)).2 hi1 hf h1
    have b := linesEff_stay (fun l hl => hw l (by simp [hl])) hi2 (ET.eff_flat (st := st.lines (nlCount nl)) hf h1) h2
    rw [a1] at b
    exact ValsStay.trans a b.shrink

/-! ## Whole texts -/

theorem ValsStay.getValue {p p' : Parser} (hp : PInv p) (hp' : PInv p') (hk : ValsStay p.st.heap p.st.map p'.st.map) {l : Heap} (hh : p'.st.heap = p.st.heap ++ l)
    {k : Str} {v : Value} (h : p.getValue k = .ok (some v)) : p'.getValue k = .ok (some v) := by
  unfold Parser.getValue at h ⊢
  split at h
  next a c hg =>
    have h1 : valOf p.st.map k = some a := valOf_some.mpr ⟨c, hg⟩
    simp only [Out.bind_eq, Out.bind_ok] at h
    obtain ⟨v', h2, h3⟩ := h
    obtain ⟨rank, hr⟩ := hp.inv.rank
    obtain ⟨rank', hr'⟩ := hp'.inv.rank
    have hlt : a < p.st.heap.length := by
      by_cases hlt : a < p.st.heap.length
      · exact hlt
      · have : p.st.heap[a]? = none := List.getElem?_eq_none (Nat.not_lt.mp hlt)
        simp [toVal, toValAt, this] at h2
    have hnt : p.st.heap[a]? ≠ some .table := by
      intro e
      rw [toVal_table e] at h2
      simp at h2
    obtain ⟨c', hg'⟩ := valOf_some.mp (hk k a h1 ⟨p.st.heap[a], List.getElem?_eq_getElem hlt, fun e => hnt (by rw [List.getElem?_eq_getElem hlt, e])⟩)
    rw [hg']
    dsimp only
    simp only [Out.bind_eq, Out.bind_ok]
    refine ⟨v', ?_, h3⟩
    obtain ⟨t, fp, h4, _⟩ := hr.tree hlt hnt
    have h5 := h4.toVal hr
    rw [h2] at h5
    have h6 := (h4.append l)
    rw [← hh] at h6
    rw [h6.toVal hr', ← h5]
  · simp at h

theorem array_header_line {ls : List (Str × ET)} (hw : DocWf ls) {rest : Str} (h : ∃ nl w1 t w2 c, (nl, ET.table w1 (.arr t) w2 c) ∈ ls) :
    HasArrayHeaderLine (linesText ls ++ rest) := by
  obtain ⟨nl, w1, t, w2, c, hm⟩ := h
  obtain ⟨l1, l2, rfl⟩ := List.append_of_mem hm
  have hbl : Blank w1 := (hw.lines _ hm).1
  refine ⟨linesText l1 ++ nl, w1, t.text ++ lit% "]]" ++ w2 ++ optComment c ++ linesText l2 ++ rest, ?_, hbl, ?_⟩
  · simp [linesText_append, linesText, ET.text, TableType.text]
  · cases l1 with
    | nil => left; exact hw.1
    | cons x l1 =>
      right
      have := (hw.2.2 (nl, .table w1 (.arr t) w2 c) (by simp)).1
      rcases this with h | h
      · simp at h; subst h; exact ⟨_, rfl⟩
      · simp at h; subst h; exact ⟨linesText (x :: l1) ++ lit% "\r", by simp⟩

/-- Reading a text without headers of arrays of tables. -/
theorem parse_stay {p p' : Parser} {i : Str} {r : ParseResult} (hr : Reachable p) (hi : ¬ HasArrayHeaderLine i) (h : p.parse i = .ok (p', r)) {k : Str} {v : Value}
    (hv : p.getValue k = .ok (some v)) : p'.getValue k = .ok (some v) := by
  obtain ⟨ls, px, st1, hp, ho⟩ := parse_opened h
  have hw : ∀ l ∈ ls, l.2.wf ∧ l.2.plain := by
    intro l hl
    refine ⟨hp.wf.lines _ hl, ?_⟩
    obtain ⟨nl, e⟩ := l
    cases e with
    | table w1 t w2 c =>
      cases t with
      | std => trivial
      | arr t => exact hi (by rw [hp.text]; exact array_header_line hp.wf ⟨nl, w1, t, w2, c, hl⟩)
    | _ => trivial
  have a := linesEff_stay hw hr.inv.inv hr.flat hp.eff
  have b := (PX.eff_kept ho hp.pxeff).1.stay p.st.heap
  obtain ⟨l, _, e1, _⟩ := hp.tree
  exact (a.trans b).getValue hr.inv (hr.parse h).inv e1 hv

end Tomllib
