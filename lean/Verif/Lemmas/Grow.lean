import Verif.Lemmas.Stay
import Verif.Lemmas.Report
import Verif.Lemmas.Accept
/-!
# Names at the top level are only added; documents that go on in order
-/

namespace Tomllib

/-! ## The top level -/

/-- The names at the top level. -/
def TopGrows (m m' : KMap) : Prop := ∀ l, kidsOf m root = some (.keys l) → ∃ l', kidsOf m' root = some (.keys l') ∧ l <+: l'

theorem TopGrows.refl (m : KMap) : TopGrows m m := fun l h => ⟨l, h, List.prefix_refl _⟩
theorem TopGrows.trans {a b c : KMap} (h : TopGrows a b) (h' : TopGrows b c) : TopGrows a c := by
  intro l hl
  obtain ⟨l1, h1, h2⟩ := h l hl
  obtain ⟨l2, h3, h4⟩ := h' l1 h1
  exact ⟨l2, h3, h2.trans h4⟩
theorem Kept.topGrows {m m' : KMap} (h : Kept m m') : TopGrows m m' := by
  intro l hl
  obtain ⟨c', h1, h2⟩ := h.kids root _ hl
  cases c' with
  | keys l' => exact ⟨l', h1, h2⟩
  | count n => exact h2.elim

theorem TopGrows.other (m : KMap) {k : Str} (hk : k ≠ root) (hv : HashValue) : TopGrows m (m.insert k hv) := by
  intro l hl
  refine ⟨l, ?_, List.prefix_refl _⟩
  rw [kidsOf_insert, if_neg hk]; exact hl

theorem TopGrows.names {m : KMap} {k : Str} {v v' : Option Addr} {ks ks' : List Str} (hg : m.get? k = some ⟨v, .keys ks⟩) (hp : ks <+: ks') :
    TopGrows m (m.insert k ⟨v', .keys ks'⟩) := by
  intro l hl
  rw [kidsOf_insert]
  split
  next e =>
    subst e
    simp [kidsOf, hg] at hl
    subst hl
    exact ⟨ks', rfl, hp⟩
  · exact ⟨l, hl, List.prefix_refl _⟩

theorem TopGrows.count {m : KMap} {k : Str} {v v' : Option Addr} {n : Nat} (hg : m.get? k = some ⟨v, .count n⟩) (c : Children) : TopGrows m (m.insert k ⟨v', c⟩) := by
  intro l hl
  rw [kidsOf_insert]
  split
  next e => subst e; simp [kidsOf, hg] at hl
  · exact ⟨l, hl, List.prefix_refl _⟩

theorem TopGrows.value {m : KMap} {k : Str} {v v' : Option Addr} {c : Children} (hg : m.get? k = some ⟨v, c⟩) : TopGrows m (m.insert k ⟨v', c⟩) := by
  cases c with
  | keys ks => exact .names hg (List.prefix_refl _)
  | count n => exact .count hg _

theorem TopGrows.absent {m : KMap} {k : Str} (hg : m.get? k = none) (hv : HashValue) : TopGrows m (m.insert k hv) := by
  intro l hl
  rw [kidsOf_insert]
  split
  next e => subst e; simp [kidsOf, hg] at hl
  · exact ⟨l, hl, List.prefix_refl _⟩

theorem implicitLoop_top : ∀ (ks : List Str) {m m' : KMap} {lk : Str} {first : Bool}, (∀ k ∈ ks, k ≠ root) → implicitLoop ks m lk first = .ok m' → TopGrows m m'
  | [], m, m', _, _, _, e => by simp [implicitLoop] at e; subst e; exact .refl _
  | k :: ks, m, m', lk, first, hr, e => by
    have key : ∀ (m1 : KMap) (ins f : Bool), TopGrows m m1 → (if ks = [] then Out.ok m1
          else implicitLoop ks (if ins then m1.insert (if lk ≠ root then lk ++ lit% "." ++ k else k) ⟨none, .keys []⟩ else m1)
            (if lk ≠ root then lk ++ lit% "." ++ k else k) f) = .ok m' → TopGrows m m' := by
      intro m1 ins f h1 h2
      split at h2
      · simp at h2; subst h2; exact h1
      · have h3 := implicitLoop_top ks (fun x hx => hr x (by simp_all)) h2
        rw [preOf_next] at h3
        split at h3
        · exact (h1.trans (.other _ (preOf_ne_root (hr k (by simp))) _)).trans h3
        · exact h1.trans h3
    unfold implicitLoop at e
    cases hg : m.get? lk with
    | none =>
      rw [hg] at e
      exact key m false first (.refl m) e
    | some hv =>
      rw [hg] at e
      obtain ⟨v, c⟩ := hv
      cases c with
      | keys names => exact key _ _ _ (.names hg (insertUniq_prefix _ _)) e
      | count c =>
        cases first with
        | true => exact key _ true false (.count hg (.count (c + 1))) e
        | false => simp at e

theorem addImplicitTables_top {m m' : KMap} {h : Heap} {ts : List TableType} {is : List Nat} {t : TableType} (hw : t.wf)
    (e : addImplicitTables m h ts is t = .ok m') : TopGrows m m' := by
  simp only [addImplicitTables, Out.bind_eq] at e
  obtain ⟨⟨v, lk, pk⟩, _, e⟩ := Out.bind_ok.mp e
  dsimp only at e
  split at e
  · simp at e; subst e; exact .refl _
  · refine implicitLoop_top _ ?_ e
    intro k hk
    obtain ⟨y, hy, rfl⟩ := List.mem_map.mp (List.mem_of_mem_drop hk)
    exact (hw.2 y hy).2.ne_root

theorem stdTableAct_top {t : Table} (hw : (TableType.std t).wf) {st st' : PState} {tt : TableType} (e : stdTableAct t st = .ok (st', tt)) : TopGrows st.map st'.map := by
  simp only [stdTableAct, Out.bind_eq] at e
  split at e
  · simp at e
  · obtain ⟨⟨err, tk, pk⟩, h1, e⟩ := Out.bind_ok.mp e
    dsimp only at e
    split at e
    · obtain ⟨_, _, e⟩ := Out.bind_ok.mp e
      simp at e; rw [← e.1]; exact .refl _
    · obtain ⟨m1, e1, e⟩ := Out.bind_ok.mp e
      obtain ⟨m2, e2, e⟩ := Out.bind_ok.mp e
      obtain ⟨m3, e3, e⟩ := Out.bind_ok.mp e
      simp at e; rw [← e.1]
      refine (((addImplicitTables_top hw e1).trans (?_ : TopGrows m1 m2)).trans (?_ : TopGrows m2 (stdEntry m2 st.heap.length tk))).trans (?_ : TopGrows _ m3)
      · simp only [addToTableSet, Out.bind_eq] at e2
        obtain ⟨pk', _, e2⟩ := Out.bind_ok.mp e2
        split at e2
        next hg => simp at e2; subst e2; exact .names hg (insertUniq_prefix _ _)
        · simp at e2; subst e2; exact .refl _
      · unfold stdEntry
        split
        next hv hg =>
          obtain ⟨v, c⟩ := hv
          exact .value hg
        next hg => exact .absent hg _
      · unfold stdParent at e3
        split at e3
        next hg => simp at e3; subst e3; exact .names hg (insertUniq_prefix _ _)
        · simp at e3
        · simp at e3; subst e3; exact .refl _

theorem arrPush_top {m : KMap} {h : Heap} {t : TableType} (hw : t.wf) {ts : List TableType} {is : List Nat} {x : KMap × List TableType × List Nat}
    (e : arrPush m h t ts is = .ok x) : TopGrows m x.1 ∧ x.2.1.length = ts.length + 1 ∧ x.2.2.length = is.length + 1 := by
  simp only [arrPush, Out.bind_eq] at e
  obtain ⟨m1, e1, e⟩ := Out.bind_ok.mp e
  simp at e; subst e
  exact ⟨addImplicitTables_top hw e1, by simp, by simp⟩

theorem arrNext_top {m : KMap} {ts : List TableType} {is : List Nat} {x : KMap × List TableType × List Nat} (e : arrNext m ts is = .ok x) :
    TopGrows m x.1 ∧ x.2.1 = ts ∧ x.2.2.length = is.length ∧ is ≠ [] := by
  simp only [arrNext, incrementArrayTableIndex, Out.bind_eq] at e
  obtain ⟨⟨m1, is1⟩, e1, e⟩ := Out.bind_ok.mp e
  obtain ⟨pk, _, e1⟩ := Out.bind_ok.mp e1
  simp at e; subst e
  split at e1
  · simp at e1
  next i hi =>
    have hne : is ≠ [] := by rintro rfl; simp at hi
    simp at e1
    obtain ⟨rfl, rfl⟩ := e1
    refine ⟨?_, rfl, ?_, hne⟩
    · dsimp only
      split
      next hg => exact .count hg _
      · exact .refl _
    · have := List.length_pos_iff.mpr hne
      simp; omega

/-- The key of the top of a stack of arrays of tables ends with the index of an element. -/
theorem arrayTableKeyLoop_ne_root (m : KMap) (h : Heap) : ∀ (ts : List TableType) (is : List Nat) (fk : Str) (pe : Nat) (v : Bool) (pk : Str),
    is ≠ [] → (∀ x ∈ ts, x.isArr) → ∀ {v1 : Bool} {f1 p1 : Str}, arrayTableKeyLoop m h ts is fk pe v pk = .ok (v1, f1, p1) → f1 ≠ root
  | _, [], _, _, _, _, hn, _, _, _, _, _ => absurd rfl hn
  | [], _ :: _, _, _, _, _, _, _, _, _, _, e => by simp [arrayTableKeyLoop] at e
  | .std _ :: _, _ :: _, _, _, _, _, _, ha, _, _, _, _ => absurd (ha _ (List.mem_cons_self ..)) id
  | .arr t' :: ts, idx :: is, fk, pe, v, pk, _, ha, v1, f1, p1, e => by
    rw [arrayTableKeyLoop] at e
    simp only [Out.bind_eq] at e
    obtain ⟨fk1, h1, e⟩ := Out.bind_ok.mp e
    obtain ⟨ix, h2, e⟩ := Out.bind_ok.mp e
    by_cases his : is = []
    · subst his
      rw [if_neg (by simp), arrayTableKeyLoop] at e
      simp only [Out.ok.injEq, Prod.mk.injEq] at e
      obtain ⟨_, rfl, _⟩ := e
      intro e
      have : ']' ∈ root := by rw [← e]; simp [idxStr]
      simp [root] at this
    · rw [if_pos his] at e
      exact arrayTableKeyLoop_ne_root m h ts is _ _ _ _ his (fun x hx => ha x (by simp_all)) e

theorem arrayTableAct_top {t : Table} (hw : (TableType.arr t).wf) {st st' : PState} {tt : TableType} (hf : Flat st.lastArrayTables)
    (e : arrayTableAct t st = .ok (st', tt)) : TopGrows st.map st'.map := by
  simp only [arrayTableAct, Out.bind_eq] at e
  split at e
  · simp at e
  · have ha := hf.pop false
    rw [Bool.or_false] at ha
    obtain ⟨⟨m1, ts1, is1⟩, e1, e⟩ := Out.bind_ok.mp e
    have h1 : TopGrows st.map m1 ∧ is1 ≠ [] ∧ ∀ y ∈ ts1, y.isArr := by
      generalize (if isTopStd st.lastArrayTables = true then st.lastArrayTables.dropLast else st.lastArrayTables) = ts at e1 ha
      generalize (if isTopStd st.lastArrayTables = true then st.lastArrayTablesIndex.dropLast else st.lastArrayTablesIndex) = is at e1
      have push : ∀ {m : KMap} {ts : List TableType} {is : List Nat} {x : KMap × List TableType × List Nat}, (∀ y ∈ ts, y.isArr) → arrPush m st.heap (.arr t) ts is = .ok x →
          TopGrows m x.1 ∧ x.2.2 ≠ [] ∧ ∀ y ∈ x.2.1, y.isArr := by
        intro m ts is x hh he
        obtain ⟨a, b, c⟩ := arrPush_top hw he
        exact ⟨a, by intro hc; rw [hc] at c; simp at c, arrPush_flat hh he⟩
      have next : ∀ {m : KMap} {ts : List TableType} {is : List Nat} {x : KMap × List TableType × List Nat}, (∀ y ∈ ts, y.isArr) → arrNext m ts is = .ok x →
          TopGrows m x.1 ∧ x.2.2 ≠ [] ∧ ∀ y ∈ x.2.1, y.isArr := by
        intro m ts is x hh he
        obtain ⟨a, b, c, d⟩ := arrNext_top he
        refine ⟨a, ?_, by rw [b]; exact hh⟩
        intro hc
        rw [hc] at c
        exact d (by simpa using c.symm)
      unfold arrPlace at e1
      split at e1
      · exact push ha e1
      · split at e1
        · exact next ha e1
        · split at e1
          · exact push ha e1
          · dsimp only at e1
            have hp := fun x hx => ha x (popLoop_mem (fun top => decide (TableType.keyStr (.arr t) = top.keyStr)) ts.length ts is x hx)
            split at e1
            · exact next hp e1
            · simp only [arrAgain, Out.bind_eq] at e1
              obtain ⟨⟨m2, ts2, is2⟩, e2, e1⟩ := Out.bind_ok.mp e1
              obtain ⟨pk, _, e1⟩ := Out.bind_ok.mp e1
              have h2 := push hp e2
              dsimp only at e1
              split at e1
              · have h3 := next h2.2.2 e1
                exact ⟨h2.1.trans h3.1, h3.2⟩
              · simp at e1; obtain ⟨rfl, rfl, rfl⟩ := e1; exact h2
    obtain ⟨⟨a, b, c⟩, h2, e⟩ := Out.bind_ok.mp e
    dsimp only at e
    split at e
    · simp at e; rw [← e.1]; exact h1.1
    · have hb : b ≠ root := arrayTableKeyLoop_ne_root m1 st.heap ts1 is1 [] 0 true root h1.2.1 h1.2.2 h2
      simp at e; rw [← e.1]
      refine (h1.1.trans ?_).trans (.other _ hb _)
      split
      · exact .refl _
      next hc =>
        refine .absent ?_ _
        simp [SMap.contains] at hc
        exact hc

theorem ET.eff_top {e : ET} (hw : e.wf) {st st' : PState} (hf : Flat st.lastArrayTables) (h : e.eff st = .ok st') : TopGrows st.map st'.map := by
  cases e with
  | blank => simp [ET.eff] at h; subst h; exact .refl _
  | comment => simp [ET.eff] at h; subst h; exact .refl _
  | kv _ k _ v _ _ =>
    obtain ⟨s1, h1, h2⟩ := Out.bind_ok.mp h
    have a : Kept (st.pushK k).map s1.map := VT.eff_kept v h1
    exact (a.trans (keyvalAct_kept h2)).topGrows
  | table _ t _ _ =>
    cases t with
    | arr t =>
      obtain ⟨⟨s, tt⟩, h1, h2⟩ := Out.bind_ok.mp h
      simp at h2; subst h2
      exact arrayTableAct_top hw.2.1 (st := st.pushKs _) hf h1
    | std t =>
      obtain ⟨⟨s, tt⟩, h1, h2⟩ := Out.bind_ok.mp h
      simp at h2; subst h2
      exact stdTableAct_top hw.2.1 (st := st.pushKs _) h1

theorem linesEff_top : ∀ {ls : List (Str × ET)} {st st' : PState} {ns : List NLExpression}, (∀ l ∈ ls, l.2.wf) → Flat st.lastArrayTables →
    linesEff ls st = .ok (st', ns) → TopGrows st.map st'.map
  | [], st, st', ns, _, _, h => by simp [linesEff] at h; rw [← h.1]; exact .refl _
  | (nl, e) :: ls, st, st', ns, hw, hf, h => by
    rw [linesEff] at h
    obtain ⟨s1, h1, h⟩ := Out.bind_ok.mp h
    obtain ⟨⟨s2, n2⟩, h2, h⟩ := Out.bind_ok.mp h
    simp at h
    obtain ⟨rfl, _⟩ := h
    have a := ET.eff_top (hw (nl, e) (by simp)) (st := st.lines (nlCount nl)) hf h1
    exact TopGrows.trans a (linesEff_top (fun l hl => hw l (by simp [hl])) (ET.eff_flat (st := st.lines (nlCount nl)) hf h1) h2)

theorem getChildren_kids (p : Parser) (k : Str) : p.getChildren k = kidsOf p.st.map (if k = [] then root else k) := by
  unfold Parser.getChildren kidsOf
  dsimp only
  cases p.st.map.get? (if k = [] then root else k) <;> rfl

theorem parse_top {p p' : Parser} {i : Str} {r : ParseResult} (hr : Reachable p) (h : p.parse i = .ok (p', r)) {l : List Str} (hl : p.getChildren [] = some (.keys l)) :
    ∃ l', p'.getChildren [] = some (.keys l') ∧ l <+: l' := by
  obtain ⟨ls, px, st1, hp, ho⟩ := parse_opened h
  rw [getChildren_kids, if_pos rfl] at hl ⊢
  exact ((linesEff_top hp.wf.lines hr.flat hp.eff).trans (PX.eff_kept ho hp.pxeff).1.topGrows) l hl

/-! ## Documents that go on in order -/

namespace Sections

/-- What has been read stays. -/
structure Grows (D D' : Sections) : Prop where
  vals : D.vals <+: D'.vals
  heads : ∀ x ∈ D.heads, x ∈ D'.heads
  names : D.names <+: D'.names
  arrs : ∀ x ∈ D.arrs, x ∈ D'.arrs
  count : ∀ q n, D.count q = some n → ∃ n', D'.count q = some n' ∧ n ≤ n'

theorem Grows.refl (D : Sections) : D.Grows D := ⟨List.prefix_refl _, fun _ h => h, List.prefix_refl _, fun _ h => h, fun _ n h => ⟨n, h, Nat.le_refl _⟩⟩
theorem Grows.trans {A B C : Sections} (h : A.Grows B) (h' : B.Grows C) : A.Grows C :=
  ⟨h.vals.trans h'.vals, fun x hx => h'.heads x (h.heads x hx), h.names.trans h'.names, fun x hx => h'.arrs x (h.arrs x hx), fun q n hn => by
    obtain ⟨a, h1, h2⟩ := h.count q n hn
    obtain ⟨b, h3, h4⟩ := h'.count q a h1
    exact ⟨b, h3, Nat.le_trans h2 h4⟩⟩

theorem Grows.same {D D' : Sections} (h1 : D'.vals = D.vals) (h2 : D'.heads = D.heads) (h3 : D'.names = D.names) (h4 : D'.arrs = D.arrs) : D.Grows D' :=
  ⟨by rw [h1]; exact List.prefix_refl _, fun x hx => by rw [h2]; exact hx, by rw [h3]; exact List.prefix_refl _, fun x hx => by rw [h4]; exact hx,
    fun q n hn => ⟨n, by unfold Sections.count at hn ⊢; rw [h4]; exact hn, Nat.le_refl _⟩⟩

theorem Grows.step (D : Sections) (e : ET) : D.Grows (D.step e) := by
  cases e with
  | blank => exact .refl _
  | comment => exact .refl _
  | kv => exact ⟨List.prefix_append _ _, fun _ h => h, List.prefix_append _ _, fun _ h => h, fun _ n h => ⟨n, h, Nat.le_refl _⟩⟩
  | table w1 t w2 c =>
    cases t with
    | std t => exact ⟨List.prefix_refl _, fun x h => by simp [Sections.step, h], List.prefix_append _ _, fun _ h => h, fun _ n h => ⟨n, h, Nat.le_refl _⟩⟩
    | arr t =>
      refine ⟨List.prefix_refl _, fun _ h => h, List.prefix_append _ _, fun x h => by simp [Sections.step, h], fun q n hn => ?_⟩
      rw [count_cons (D := D) (D' := D.step (.table w1 (.arr t) w2 c)) rfl]
      split
      next e => subst e; rw [hn]; exact ⟨_, rfl, by simp⟩
      · exact ⟨n, hn, Nat.le_refl _⟩

theorem Grows.valueAt {D D' : Sections} (h : D.Grows D') {q : List Key} {t : VT} (hv : D.valueAt q = some t) : D'.valueAt q = some t := by
  obtain ⟨l, hl⟩ := h.vals
  unfold Sections.valueAt at hv ⊢
  rw [← hl, List.findSome?_append, hv]; rfl

theorem Grows.isTable {D D' : Sections} (h : D.Grows D') {q : List Key} (ht : D.isTable q) : D'.isTable q := by
  rcases ht with ht | ht | ⟨e, he, ht⟩ | ⟨e, he, ht⟩
  · exact .inl ht
  · exact .inr (.inl (h.heads q ht))
  · exact .inr (.inr (.inl ⟨e, h.arrs e he, ht⟩))
  · exact .inr (.inr (.inr ⟨e, h.names.subset he, ht⟩))

theorem names_foldl (p : List Key) : ∀ (w : List (List Key × Str)) (l : List Str),
    l <+: w.foldl (fun l e => if e.1 = p ∧ e.2 ∉ l then l ++ [e.2] else l) l
  | [], l => List.prefix_refl l
  | e :: w, l => by
    rw [List.foldl_cons]
    refine List.IsPrefix.trans ?_ (names_foldl p w _)
    split
    · exact List.prefix_append _ _
    · exact List.prefix_refl _

theorem Grows.namesOf {D D' : Sections} (h : D.Grows D') (q : List Key) : D.namesOf q <+: D'.namesOf q := by
  obtain ⟨l, hl⟩ := h.names
  unfold Sections.namesOf
  rw [← hl, List.foldl_append]
  exact names_foldl q l _

theorem Grows.children {D D' : Sections} (h : D.Grows D') {K : List Key → Option HashValue} {hp : Heap} {q : List Key} (s : D'.Slot K hp q) {c : Children}
    (hc : D.childrenAt q = some c) : ∃ c', D'.childrenAt q = some c' ∧ c.grown c' := by
  unfold childrenAt at hc ⊢
  cases hv : D.valueAt q with
  | some t =>
    rw [hv] at hc
    rw [h.valueAt hv]
    simp at hc
    exact ⟨_, rfl, by rw [hc]; exact c.grown_refl⟩
  | none =>
    rw [hv] at hc
    dsimp only at hc
    cases hn : D.count q with
    | some n =>
      rw [hn] at hc
      obtain ⟨n', h1, h2⟩ := h.count q n hn
      rw [s.val_arr (by rw [h1]; simp), h1]
      simp at hc; subst hc
      exact ⟨_, rfl, h2⟩
    | none =>
      rw [hn] at hc
      dsimp only at hc
      split at hc
      next ht =>
        have ht' := h.isTable ht
        rw [s.val_tab ht', s.arr_tab ht']
        dsimp only
        rw [if_pos ht']
        simp at hc; subst hc
        exact ⟨_, rfl, h.namesOf q⟩
      · simp at hc

end Sections

theorem Account.next_grows (R : Account) (n : Nat) (e : ET) : R.doc.Grows (R.next n e).doc := by
  cases e with
  | blank => exact .refl _
  | comment => exact .refl _
  | kv w1 k s v w2 c =>
    unfold Account.next
    dsimp only
    split
    · exact .refl _
    · split
      · exact .refl _
      · exact Sections.Grows.step R.doc (.kv w1 k s v w2 c)
  | table w1 t w2 c =>
    cases t with
    | std t =>
      unfold Account.next
      dsimp only
      split
      · exact Sections.Grows.step R.doc (.table w1 (.std t) w2 c)
      · exact .same rfl rfl rfl rfl
    | arr t => exact Sections.Grows.step R.doc (.table w1 (.arr t) w2 c)

theorem Account.all_grows : ∀ (ls : List (Str × ET)) (R : Account) (n : Nat), R.doc.Grows (R.all n ls).doc
  | [], _, _ => .refl _
  | (_, e) :: ls, R, _ => (R.next_grows _ e).trans (Account.all_grows ls _ _)

theorem Account.all_append : ∀ (ls more : List (Str × ET)) (R : Account) (n : Nat), R.all n (ls ++ more) = (R.all n ls).all (n + linesCounted ls) more
  | [], more, R, n => by simp [Account.all, linesCounted]
  | (nl, e) :: ls, more, R, n => by
    rw [List.cons_append, Account.all, Account.all_append ls more, Account.all]
    congr 1
    simp [linesCounted]
    omega

theorem Account.Allows.left : ∀ {ls more : List (Str × ET)} {R : Account} {n : Nat}, R.Allows n (ls ++ more) → R.Allows n ls
  | [], _, _, _, _ => trivial
  | (_, _) :: _, _, _, _, h => ⟨h.1, Account.Allows.left h.2⟩

theorem Sections.RSim.good {R : Account} {st : PState} (h : RSim R st) : R.doc.Good (KP st.map) st.heap ∧ Only st.map := by
  unfold RSim at h
  split at h
  · obtain ⟨_, _, _, h⟩ := h
    exact ⟨h.good, h.only⟩
  · exact ⟨SimE.good h, SimE.only h⟩

/-- The answers of a parser, and those of one that read more. -/
theorem Sections.RSim.grows {R R' : Account} {p p' : Parser} (h : RSim R p.st) (h' : RSim R' p'.st) (hi : Inv p.st) (hi' : Inv p'.st) (hg : R.doc.Grows R'.doc)
    (ht : TopGrows p.st.map p'.st.map) :
    (∀ k v, p.getValue k = .ok (some v) → p'.getValue k = .ok (some v)) ∧
    ∀ k c, p.getChildren k = some c → ∃ c', p'.getChildren k = some c' ∧ c.grown c' := by
  have a := h.answers hi
  have a' := h'.answers hi'
  obtain ⟨g, ho⟩ := h.good
  obtain ⟨g', ho'⟩ := h'.good
  refine ⟨fun k v hv => ?_, fun k c hc => ?_⟩
  · have hne : p.st.map.get? k ≠ none := by
      intro e
      simp [Parser.getValue, e] at hv
    obtain ⟨q, hq, e⟩ := ho k hne
    by_cases hq0 : q = []
    · subst hq0
      exfalso
      rw [show parP [] = root by simp [parP]] at e
      subst e
      obtain ⟨x, l, e1, _, e3, e4⟩ := (g.slot [] trivial).tab (.inl rfl)
      have e1 : p.st.map.get? root = some ⟨x, .keys l⟩ := e1
      by_cases hh : [] ∈ R.doc.heads
      · obtain ⟨a, rfl, e5⟩ := e3 hh
        simp only [Parser.getValue, e1, Out.bind_eq] at hv
        rw [toVal_table e5] at hv
        simp [Out.bind] at hv
      · obtain rfl := e4 hh
        simp [Parser.getValue, e1] at hv
    · rw [show parP q = keyOf [] q by simp [parP, hq0]] at e
      subst e
      rw [a.value q hq hq0] at hv
      rw [a'.value q hq hq0]
      cases hx : R.doc.valueAt q with
      | none =>
        rw [hx] at hv
        dsimp only at hv
        split at hv <;> simp at hv
      | some t =>
        rw [hx] at hv
        rw [hg.valueAt hx]
        exact hv
  · rw [getChildren_kids] at hc
    by_cases hk : (if k = [] then root else k) = root
    · rw [getChildren_kids, hk]
      rw [hk] at hc
      cases c with
      | keys l =>
        obtain ⟨l', h1, h2⟩ := ht l hc
        exact ⟨_, h1, h2⟩
      | count n =>
        obtain ⟨x, l, e1, _⟩ := (g.slot [] trivial).tab (.inl rfl)
        have e1 : p.st.map.get? root = some ⟨x, .keys l⟩ := e1
        simp [kidsOf, e1] at hc
    · have hk0 : k ≠ [] := by rintro rfl; simp at hk
      rw [if_neg hk0] at hk hc
      have hne : p.st.map.get? k ≠ none := by
        intro e
        simp [kidsOf, e] at hc
      obtain ⟨q, hq, e⟩ := ho k hne
      by_cases hq0 : q = []
      · subst hq0
        exact absurd (by simpa [parP] using e) hk
      · rw [show parP q = keyOf [] q by simp [parP, hq0]] at e
        subst e
        have hc' : p.getChildren (keyOf [] q) = some c := by rw [getChildren_kids, if_neg hk0]; exact hc
        rw [a.children q hq hq0] at hc'
        rw [a'.children q hq hq0]
        exact hg.children (g'.slot q hq) hc'

/-- The first lines of a document. -/
theorem doc_split {ls more : List (Str × ET)} (h : DocTaken ls) (h' : DocTaken (ls ++ more)) {p p' : Parser} {r r' : ParseResult}
    (hp : Parser.new.parse (linesText ls) = .ok (p, r)) (hp' : Parser.new.parse (linesText (ls ++ more)) = .ok (p', r')) :
    ∃ ns, linesEff more p.st = .ok (p'.st, ns) := by
  have e := (h.parsed hp).1.eff
  have e' := (h'.parsed hp').1.eff
  obtain ⟨s1, n1, n2, f1, f2⟩ := linesEff_split e'
  rw [e] at f1
  simp only [Out.ok.injEq, Prod.mk.injEq] at f1
  rw [← f1.1] at f2
  exact ⟨n2, f2⟩

/-- A document that goes on without arrays of tables. -/
theorem plain_grows {ls more : List (Str × ET)} (h : DocTaken ls) (h' : DocTaken (ls ++ more)) (hm : ∀ l ∈ more, l.2.plain) {p p' : Parser}
    {r r' : ParseResult} (hp : Parser.new.parse (linesText ls) = .ok (p, r)) (hp' : Parser.new.parse (linesText (ls ++ more)) = .ok (p', r')) {k : Str} {v : Value}
    (hv : p.getValue k = .ok (some v)) : p'.getValue k = .ok (some v) := by
  obtain ⟨ns, e⟩ := doc_split h h' hp hp'
  have R1 := Reachable.new.parse hp
  have R2 := Reachable.new.parse hp'
  obtain ⟨l, _, hl, _⟩ := linesEff_rep e
  exact (linesEff_stay (fun l hl => ⟨h'.wf.lines l (by simp [hl]), hm l hl⟩) R1.inv.inv R1.flat e).getValue R1.inv R2.inv hl hv

/-- A document that goes on, with the faults of Spec/Report.lean. -/
theorem allows_grows {ls more : List (Str × ET)} (h : DocTaken ls) (h' : DocTaken (ls ++ more)) (ha : ({} : Account).Allows 1 (ls ++ more)) {p p' : Parser}
    {r r' : ParseResult} (hp : Parser.new.parse (linesText ls) = .ok (p, r)) (hp' : Parser.new.parse (linesText (ls ++ more)) = .ok (p', r')) :
    (∀ k v, p.getValue k = .ok (some v) → p'.getValue k = .ok (some v)) ∧
    ∀ k c, p.getChildren k = some c → ∃ c', p'.getChildren k = some c' ∧ c.grown c' := by
  have P := (h.parsed hp).1
  have P' := (h'.parsed hp').1
  obtain ⟨st, es, e, hs⟩ := Sections.RSim.all ls Sections.RSim.new h.wf.lines ha.left
  obtain ⟨st', es', e', hs'⟩ := Sections.RSim.all (ls ++ more) Sections.RSim.new h'.wf.lines ha
  have e1 := P.eff
  have e2 := P'.eff
  rw [show Parser.new.st = PState.new from rfl] at e1 e2
  rw [e] at e1
  rw [e'] at e2
  simp only [Out.ok.injEq, Prod.mk.injEq] at e1 e2
  rw [e1.1] at hs e
  rw [e2.1] at hs' e'
  have R1 := Reachable.new.parse hp
  have R2 := Reachable.new.parse hp'
  obtain ⟨ns, f2⟩ := doc_split h h' hp hp'
  have ht := linesEff_top (fun l hl => h'.wf.lines l (by simp [hl])) R1.flat f2
  refine hs.grows hs' R1.inv.inv R2.inv.inv ?_ ht
  rw [Account.all_append]
  exact Account.all_grows more _ _

end Tomllib
