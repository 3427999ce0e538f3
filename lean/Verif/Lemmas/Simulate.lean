import Verif.Lemmas.Sections
/-!
# Documents with arrays of tables: line by line
-/

namespace Tomllib
namespace Sections

/-! ## Paths of names -/

theorem path_append (D : Sections) : ∀ (x y : List Str) (p : List Key), D.path p (x ++ y) = D.path (D.path p x) y
  | [], _, _ => rfl
  | k :: x, y, p => by rw [List.cons_append, path, path, path_append]

theorem way_append (D : Sections) : ∀ (x y : List Str) (p : List Key), D.way p (x ++ y) = D.way p x ++ D.way (D.path p x) y
  | [], _, _ => rfl
  | k :: x, y, p => by rw [List.cons_append, way, way, way_append, path]; rfl

theorem path_names (D : Sections) : ∀ (ks : List Str) (b : List Key), (∀ x y, x ≠ [] → x ++ y = ks → D.count (b ++ Tomllib.names x) = none) →
    D.path b ks = b ++ Tomllib.names ks
  | [], b, _ => by simp [path, Tomllib.names]
  | k :: ks, b, h => by
    have h1 : D.count (b ++ [.str k]) = none := h [k] ks (by simp) rfl
    rw [path, enter, h1]
    dsimp only
    rw [path_names D ks _ fun x y hx e => by
      have := h (k :: x) y (by simp) (by simp [e])
      simpa [Tomllib.names] using this]
    simp [Tomllib.names]

theorem way_names (D : Sections) : ∀ (ks : List Str) (b : List Key), (∀ x y, x ≠ [] → y ≠ [] → x ++ y = ks → D.count (b ++ Tomllib.names x) = none) →
    D.way b ks = wayN b ks
  | [], b, _ => rfl
  | [k], b, _ => rfl
  | k :: k' :: ks, b, h => by
    have h1 : D.count (b ++ [.str k]) = none := h [k] (k' :: ks) (by simp) (by simp) rfl
    rw [way, enter, h1]
    dsimp only
    rw [way_names D (k' :: ks) _ fun x y hx hy e => by
      have := h (k :: x) y (by simp) hy (by simp [e])
      simpa [Tomllib.names] using this]
    rfl

theorem mem_wayN : ∀ (ks : List Str) (b a : List Key) (k : Str), (a, k) ∈ wayN b ks ↔ ∃ x y, x ++ k :: y = ks ∧ a = b ++ Tomllib.names x
  | [], b, a, k => by simp [wayN]
  | k' :: ks, b, a, k => by
    rw [wayN, List.mem_cons, mem_wayN ks]
    constructor
    · rintro (h | ⟨x, y, rfl, rfl⟩)
      · simp at h
        exact ⟨[], ks, by simp [h.2], by simp [h.1, Tomllib.names]⟩
      · exact ⟨k' :: x, y, rfl, by simp [Tomllib.names]⟩
    · rintro ⟨x, y, e, rfl⟩
      cases x with
      | nil =>
        simp at e
        left; simp [Tomllib.names, e.1]
      | cons z x =>
        simp at e
        right
        exact ⟨x, y, e.2, by simp [Tomllib.names, e.1]⟩

/-! ## The open arrays of tables -/

/-- The open arrays of tables, with the number of the last element of each; the names of the innermost one and the path of its last element. -/
inductive Open (D : Sections) : List TableType → List Nat → List Str → List Key → Prop
  | nil : Open D [] [] [] []
  | snoc {ts : List TableType} {is : List Nat} {A : List Str} {b : List Key} (t : Table) (ks : List Str) (c : Nat) : Open D ts is A b →
      (TableType.arr t).wf → t.names = A ++ ks → ks ≠ [] → (∀ x k y, x ++ k :: y = ks → (b ++ Tomllib.names x, k) ∈ D.names) →
      D.count (b ++ Tomllib.names ks) = some (c + 1) → Open D (ts ++ [.arr t]) (is ++ [c]) t.names (b ++ Tomllib.names ks ++ [.idx c])

theorem Good.hasName {D : Sections} {K : List Key → Option HashValue} {h : Heap} (g : D.Good K h) {p : List Key} {k : Str} (hk : (p, k) ∈ D.names) :
    ∃ v l, K p = some ⟨v, .keys l⟩ ∧ k ∈ l := by
  obtain ⟨v, l, e1, e2, _⟩ := (g.slot p (g.wf p (.inr (.inr (.inr ⟨_, hk, rfl⟩))))).tab (isTable_names hk)
  refine ⟨v, l, e1, ?_⟩
  unfold Lists at e2
  split at e2
  next h => subst h; exact (e2.2 k).mpr (.inl (mem_namesOf.mpr hk))
  · rw [e2]; exact mem_namesOf.mpr hk

theorem Open.length {D : Sections} {ts : List TableType} {is : List Nat} {A : List Str} {b : List Key} (h : D.Open ts is A b) : is.length = ts.length := by
  induction h with
  | nil => rfl
  | snoc _ _ _ _ _ _ _ _ _ ih => simp [ih]

theorem Open.wf {D : Sections} {ts : List TableType} {is : List Nat} {A : List Str} {b : List Key} (h : D.Open ts is A b) : NamesWf A ∧ PathWf b ∧ (A = [] ↔ b = []) ∧ (A = [] ↔ ts = []) := by
  induction h with
  | nil => exact ⟨by simp [NamesWf], trivial, by simp, by simp⟩
  | snoc t ks c _ hw hn hne _ _ ih =>
    have hN : NamesWf t.names := Table.namesWf hw.2
    refine ⟨hN, ?_, by simp [hn, hne], by simp [hn, hne]⟩
    refine PathWf.append (ih.2.1.append' (NamesWf.path ?_)) (by simp [names_ne hne]) (by simp)
    rw [hn] at hN
    exact hN.right

theorem Open.chain {D : Sections} {K : List Key → Option HashValue} {h : Heap} (g : D.Good K h) {ts : List TableType} {is : List Nat} {A : List Str} {b : List Key} (ho : D.Open ts is A b) :
    TChain K ts is A b := by
  induction ho with
  | nil => exact .nil
  | snoc t ks c ho hw hn hne hb hk ih =>
    have hwb := (Open.snoc t ks c ho hw hn hne hb hk).wf.2.1.left
    exact .snoc t ks c ih hw hn hne (fun x k y e => g.hasName (hb x k y e)) ((g.slot _ hwb).arr _ hk)

theorem Open.mono {D D' : Sections} {ts : List TableType} {is : List Nat} {A : List Str} {b : List Key} (ho : D.Open ts is A b) (hn : ∀ e ∈ D.names, e ∈ D'.names)
    (hc : ∀ r, r <+: b → r ≠ b → D'.count r = D.count r) : D'.Open ts is A b := by
  induction ho with
  | nil => exact .nil
  | @snoc ts is A b t ks c ho hw hn1 hne hb hk ih =>
    have hlt : ∀ r, r <+: b ++ Tomllib.names ks → D'.count r = D.count r := fun r hr => hc r (hr.trans (List.prefix_append _ _)) (fun e => by
      have := hr.length_le
      rw [e] at this
      simp at this
      omega)
    exact .snoc t ks c (ih fun r hr hn => hlt r (hr.trans (List.prefix_append _ _))) hw hn1 hne (fun x k y e => hn _ (hb x k y e)) (by rw [hlt _ (List.prefix_refl _)]; exact hk)

theorem Good.count_table {D : Sections} {K : List Key → Option HashValue} {h : Heap} (g : D.Good K h) {p : List Key} (hp : PathWf p) (ht : D.isTable p) : D.count p = none :=
  (g.slot p hp).arr_tab ht

/-- Between two open arrays of tables there is no other. -/
theorem Open.between {D : Sections} {K : List Key → Option HashValue} {h : Heap} (g : D.Good K h) {b : List Key} {ks : List Str} (hw : PathWf (b ++ Tomllib.names ks))
    (hb : ∀ x k y, x ++ k :: y = ks → (b ++ Tomllib.names x, k) ∈ D.names) : ∀ x y, x ≠ [] → y ≠ [] → x ++ y = ks → D.count (b ++ Tomllib.names x) = none := by
  intro x y hx hy e
  cases y with
  | nil => exact absurd rfl hy
  | cons k y =>
    refine g.count_table ?_ (isTable_names (hb x k y e))
    rw [← e, names_append, ← List.append_assoc] at hw
    exact hw.left

theorem target_append {D : Sections} {A ks : List Str} {b : List Key} (hA : D.path [] A = b) (hne : ks ≠ [])
    (h : ∀ x y, x ≠ [] → y ≠ [] → x ++ y = ks → D.count (b ++ Tomllib.names x) = none) : D.target (A ++ ks) = b ++ Tomllib.names ks := by
  have h1 : D.path [] (A ++ ks.dropLast) = b ++ Tomllib.names ks.dropLast := by
    rw [path_append, hA]
    refine path_names D _ _ fun x y hx e => h x (y ++ [ks.getLast hne]) hx (by simp) ?_
    rw [← List.append_assoc, e, List.dropLast_concat_getLast]
  rw [target, List.dropLast_append_of_ne_nil hne, h1]
  have h2 : (A ++ ks).getLastD [] = ks.getLast hne := by
    rw [List.getLastD_eq_getLast?, List.getLast?_append, List.getLast?_eq_some_getLast hne]; rfl
  rw [h2, List.append_assoc]
  congr 1
  conv => rhs; rw [← List.dropLast_concat_getLast hne]
  simp [Tomllib.names]

theorem Open.path {D : Sections} {K : List Key → Option HashValue} {h : Heap} (g : D.Good K h) {ts : List TableType} {is : List Nat} {A : List Str} {b : List Key} (ho : D.Open ts is A b) :
    D.path [] A = b ∧ (A ≠ [] → D.target A = b.dropLast) ∧ ∀ e ∈ D.way [] A, e ∈ D.names := by
  induction ho with
  | nil => exact ⟨rfl, fun h => absurd rfl h, by simp [way]⟩
  | @snoc ts is A b t ks c ho hw hn hne hb hk ih =>
    have hwb := (Open.snoc t ks c ho hw hn hne hb hk).wf.2.1.left
    have hbt := Open.between g hwb hb
    have ht := target_append ih.1 hne hbt
    refine ⟨?_, fun _ => by rw [hn, ht, List.dropLast_concat], ?_⟩
    · have h1 := List.dropLast_concat_getLast hne
      have h3 : D.path b ks.dropLast = b ++ Tomllib.names ks.dropLast := path_names D _ _ fun x y hx e => hbt x (y ++ [ks.getLast hne]) hx (by simp) (by
        rw [← List.append_assoc, e, h1])
      have h4 : b ++ Tomllib.names ks.dropLast ++ [.str (ks.getLast hne)] = b ++ Tomllib.names ks := by
        conv => rhs; rw [← h1]
        simp [Tomllib.names]
      rw [hn, path_append, ih.1]
      conv => lhs; rw [← h1]
      rw [path_append, h3, Sections.path, h4, enter, hk]
      rfl
    · intro e he
      rw [hn, way_append, ih.1, way_names D ks b hbt, List.mem_append] at he
      rcases he with he | he
      · exact ih.2.2 e he
      · obtain ⟨x, y, e1, e2⟩ := (mem_wayN ks b e.1 e.2).mp he
        have := hb x e.2 y e1
        rw [← e2] at this
        exact this

/-- Every open array of tables is counted. -/
theorem Open.counted {D : Sections} {K : List Key → Option HashValue} {h : Heap} (g : D.Good K h) {ts : List TableType} {is : List Nat} {A : List Str} {b : List Key} (ho : D.Open ts is A b) :
    ∀ t ∈ ts, D.count (D.target t.table.names) ≠ none ∧ t.table.names <+: A ∧ t.table.names ≠ [] ∧ NamesWf t.table.names := by
  induction ho with
  | nil => simp
  | @snoc ts is A b t ks c ho hw hn hne hb hk ih =>
    intro t' ht'
    rw [List.mem_append, List.mem_singleton] at ht'
    rcases ht' with h | rfl
    · obtain ⟨h1, h2, h3, h4⟩ := ih t' h
      exact ⟨h1, h2.trans (by rw [hn]; exact List.prefix_append _ _), h3, h4⟩
    · have hs := Open.snoc t ks c ho hw hn hne hb hk
      have hne' : t.names ≠ [] := by rw [hn]; simp [hne]
      refine ⟨?_, List.prefix_refl _, hne', Table.namesWf hw.2⟩
      show D.count (D.target t.names) ≠ none
      rw [(hs.path g).2.1 hne', List.dropLast_concat, hk]; simp

theorem Open.last {D : Sections} {ts : List TableType} {is : List Nat} {A : List Str} {b : List Key} (ho : D.Open ts is A b) : ∀ t, ts.getLast? = some t → ∃ u, t = .arr u ∧ u.names = A ∧ b ≠ [] := by
  cases ho with
  | nil => simp
  | snoc t ks c ho hw hn hne hb hk =>
    intro t' h
    simp at h
    exact ⟨t, h.symm, rfl, by simp⟩

/-- Popping the stacks. -/
theorem Open.pop {D : Sections} (stop : TableType → Bool) {ts : List TableType} {is : List Nat} {A : List Str} {b : List Key} (ho : D.Open ts is A b) :
    ∃ cts cis A' b' rest, popLoop stop ts.length ts is = (cts, cis) ∧ D.Open cts cis A' b' ∧ ts = cts ++ rest ∧ (∀ t ∈ rest, stop t = false) ∧ (∀ t, cts.getLast? = some t → stop t = true) ∧
      A' <+: A ∧ ∀ t ∈ rest, A' <+: t.table.names ∧ t.table.names ≠ A' := by
  induction ho with
  | nil => exact ⟨[], [], [], [], [], rfl, .nil, rfl, by simp, by simp, List.prefix_refl _, by simp⟩
  | @snoc ts is A b t ks c ho hw hn hne hb hk ih =>
    rw [List.length_append, List.length_singleton, popLoop, List.getLast?_concat]
    dsimp only
    by_cases hs : stop (.arr t) = true
    · rw [if_pos hs]
      exact ⟨_, _, _, _, [], rfl, .snoc t ks c ho hw hn hne hb hk, by simp, by simp, by simp [hs], List.prefix_refl _, by simp⟩
    · rw [if_neg hs, List.dropLast_concat, List.dropLast_concat]
      obtain ⟨cts, cis, A', b', rest, e1, e2, e3, e4, e5, e6, e7⟩ := ih
      have hA : A' <+: t.names := by rw [hn]; exact e6.trans (List.prefix_append _ _)
      refine ⟨cts, cis, A', b', rest ++ [.arr t], e1, e2, by rw [e3]; simp, ?_, e5, hA, ?_⟩
      · intro t' ht'
        rw [List.mem_append, List.mem_singleton] at ht'
        rcases ht' with h | rfl
        · exact e4 t' h
        · simpa using hs
      · intro t' ht'
        rw [List.mem_append, List.mem_singleton] at ht'
        rcases ht' with h | rfl
        · exact e7 t' h
        · refine ⟨hA, fun e => ?_⟩
          have h1 := e6.length_le
          have h2 : t.names = A' := e
          rw [← h2, hn, List.length_append] at h1
          have := List.length_pos_iff.mpr hne
          omega

end Sections
end Tomllib

namespace Tomllib
namespace Sections

/-- The stacks of the parser. -/
structure Tops (st : PState) (cts : List TableType) (cis : List Nat) (A : List Str) (b here : List Key) : Prop where
  top : (∃ t ks, (TableType.std t).wf ∧ t.names = A ++ ks ∧ ks ≠ [] ∧ st.lastArrayTables = cts ++ [.std t] ∧ st.lastArrayTablesIndex = cis ++ [0] ∧
      st.lastTable = some (.std t) ∧ here = b ++ Tomllib.names ks) ∨
    (st.lastArrayTables = cts ∧ st.lastArrayTablesIndex = cis ∧ here = b ∧ (b = [] → st.lastTable = none) ∧ (b ≠ [] → ∃ t, st.lastTable = some (.arr t)))
  err : st.arrayError = false

/-- What the parser knows is what the lines so far say, and the errors so far are `E`. -/
structure SimE (D : Sections) (E : List ParseError) (st : PState) : Prop where
  kc : st.keychain = []
  errs : st.errors = E
  only : Only st.map
  good : D.Good (KP st.map) st.heap
  down : ∀ Y, D.Down Y
  hereT : D.isTable D.here
  hereS : D.Solid D.here
  stack : ∃ cts cis A b, D.Open cts cis A b ∧ Tops st cts cis A b D.here ∧ D.opened = cts.map (·.table.names)

/-- There are no errors. -/
abbrev Sim (D : Sections) (st : PState) : Prop := SimE D [] st

theorem SimE.at {D : Sections} {st : PState} {E : List ParseError} (h : D.SimE E st) : At D.here st := by
  obtain ⟨cts, cis, A, b, ho, ht, _⟩ := h.stack
  exact Stack.at ⟨ho.chain h.good, ht.top, ht.err⟩

theorem SimE.level {D : Sections} {st : PState} {E : List ParseError} (h : D.SimE E st) : Level st := by
  obtain ⟨cts, cis, A, b, ho, ht, _⟩ := h.stack
  rcases ht.top with ⟨t, ks, _, _, _, h1, h2, h3, _⟩ | ⟨h1, h2, h3, h4, h5⟩
  · exact ⟨by simp [h3], by rw [h1, h2]; simp [ho.length]⟩
  · refine ⟨fun hn => ?_, by rw [h1, h2]; exact ho.length⟩
    by_cases hb : b = []
    · rw [h1]; exact ho.wf.2.2.2.mp (ho.wf.2.2.1.mpr hb)
    · obtain ⟨t, e⟩ := h5 hb
      rw [hn] at e; simp at e

theorem SimE.lines {D : Sections} {st : PState} {E : List ParseError} (h : D.SimE E st) (n : Nat) : D.SimE E (st.lines n) :=
  ⟨h.kc, h.errs, h.only, h.good, h.down, h.hereT, h.hereS, by
    obtain ⟨cts, cis, A, b, ho, ht, h'⟩ := h.stack
    exact ⟨cts, cis, A, b, ho, ⟨ht.top, ht.err⟩, h'⟩⟩

theorem drop_len {P q : List Key} : (P ++ q).drop P.length = q := by simp

/-- A key/value pair. -/
theorem SimE.kv {D : Sections} {st : PState} {E : List ParseError} (h : D.SimE E st) {w1 : Str} {k : Str} {s : WSSep} {v : VT} {w2 : Str} {c : Option Str} (hk : KeyWf k) (hv : v.wf)
    (hn : (D.here, k) ∉ D.names) (hs : v.distinct = true) :
    ∃ st', (ET.kv w1 k s v w2 c).eff st = .ok st' ∧ (D.step (.kv w1 k s v w2 c)).SimE (v.report (D.here ++ [.str k]) st.lineCount E) st' ∧ ∀ q, PathWf q → KP st'.map q =
      if D.here ++ [.str k] <+: q then v.slot st.heap.length (q.drop (D.here ++ [Key.str k]).length) else if q = D.here then upd (KP st.map q) (.str k) else KP st.map q := by
  have hat := h.at
  have hwb := hat.wf
  have hw1 : PathWf (D.here ++ [.str k]) := hwb.push hk
  have hbv : D.valueAt D.here = none := (h.good.slot _ hwb).val_tab h.hereT
  have hat1 : At D.here (st.pushK k) := hat.congr rfl rfl rfl rfl (fun _ _ _ => rfl)
  have hkc1 : (st.pushK k).keychain = [.str k] := by simp [PState.pushK, h.kc]
  obtain ⟨st1, e1, e2, e3, e4, e5, e6, e7⟩ := VT.eff_exact v (st := st.pushK k) (h.level.congr rfl rfl rfl) hat1 (by rw [hkc1]; exact PathWf.push (kc := []) trivial hk) (by rw [hkc1]; simp) hv hs h.only (by
    intro q hq
    rw [hkc1] at hq ⊢
    have := h.good.freshK h.hereS hbv hn q (by simpa using hq)
    simpa [PState.pushK] using this)
  rw [hkc1] at e2 e5 e6 e7
  obtain ⟨fp, hr⟩ := VT.rep_after e1
  have hf := VT.eff_frame e1
  have hpre : ∀ r, r <+: D.here → KP st1.map r = KP st.map r := fun r hr => e7 r (PathWf.pre hwb hr) (fun h' => by
    have h1 := hr.length_le
    have h2 := h'.length_le
    simp at h2
    omega)
  have hat2 : At D.here st1 := hat1.congr hf.lastTable hf.tables hf.index hf.err (fun r hr _ => hpre r hr)
  obtain ⟨m, f1, f2, f3⟩ := keyvalAct_exact (p := D.here) (kc := []) (k := k) (a := st1.heap.length - 1) (v := v) hat2 trivial hk (by rw [hf.keychain, hkc1]; rfl) hr (by simpa using e5)
  refine ⟨{ st1 with map := m, keychain := [] }, by rw [ET.eff, e1, Out.bind, f1], ?_⟩
  have hheap : st1.heap = st.heap ++ v.cells st.heap.length := VT.eff_heap v (st.pushK k) st1 e1
  have hKP : ∀ q, PathWf q → KP m q = if D.here ++ [.str k] <+: q then v.slot st.heap.length (q.drop (D.here ++ [Key.str k]).length) else if q = D.here then upd (KP st.map q) (.str k) else KP st.map q := by
    intro q hq
    rw [f3 q hq, List.append_nil]
    by_cases hp : D.here ++ [Key.str k] <+: q
    · rw [if_pos hp]
      obtain ⟨r, rfl⟩ := hp
      rw [drop_len]
      by_cases hr : r = []
      · subst hr
        rw [List.append_nil, if_pos rfl, VT.eff_addr e1]
        cases v <;> rfl
      · rw [if_neg (by simp [hr]), if_neg (by
          intro h
          have := congrArg List.length h
          simp at this)]
        exact e6 r hr hq
    · rw [if_neg hp, if_neg (by rintro rfl; exact hp (List.prefix_refl _)), e7 q hq hp]
      rfl
  have hg := h.good.kv (D' := D.step (.kv w1 k s v w2 c)) (K' := KP m) (v := v) h.hereT h.hereS hn hw1 rfl rfl rfl rfl rfl hKP
  have hmono : ∀ e ∈ D.names, e ∈ (D.step (.kv w1 k s v w2 c)).names := fun e he => by simp [step, he]
  have htm : ∀ p, D.isTable p → (D.step (.kv w1 k s v w2 c)).isTable p := by
    rintro p (h | h | h | ⟨e, he, h⟩)
    · exact .inl h
    · exact .inr (.inl h)
    · exact .inr (.inr (.inl h))
    · exact .inr (.inr (.inr ⟨e, hmono e he, h⟩))
  refine ⟨⟨rfl, by rw [← h.errs]; exact e2, f2 e4, ?_, ?_, htm _ h.hereT, h.hereS.mono hmono (fun a n hn => ⟨n, hn, Nat.le_refl _⟩), ?_⟩, hKP⟩
  · show (D.step (.kv w1 k s v w2 c)).Good (KP m) st1.heap
    rw [hheap]; exact hg
  · intro Y p x hx _
    have hx' : (p, x) ∈ D.names ++ [(D.here, k)] := hx
    rw [List.mem_append, List.mem_singleton] at hx'
    rcases hx' with hx' | hx'
    · rcases h.down [] p x hx' (by simp) with h1 | h1 | h1
      · left
        rw [valueAt_kv (D := D) (P := D.here ++ [.str k]) (v := v) rfl]
        cases e : D.valueAt (p ++ [.str x]) with
        | none => exact absurd e h1
        | some t => simp
      · exact .inr (.inl h1)
      · exact .inr (.inr (htm _ h1))
    · left
      obtain ⟨rfl, rfl⟩ := Prod.mk.injEq _ _ _ _ ▸ hx'
      have : (D.here ++ [.str x], v) ∈ (D.step (.kv w1 x s v w2 c)).vals := by simp [step]
      exact valueAt_val this
  · obtain ⟨cts, cis, A, b, ho, ht, h'⟩ := h.stack
    refine ⟨cts, cis, A, b, ho.mono hmono (fun r _ _ => rfl), ⟨?_, hf.err.trans ht.err⟩, h'⟩
    have a1 : st1.lastArrayTables = st.lastArrayTables := hf.tables
    have a2 : st1.lastArrayTablesIndex = st.lastArrayTablesIndex := hf.index
    have a3 : st1.lastTable = st.lastTable := hf.lastTable
    show (∃ t ks, _ ∧ _ ∧ _ ∧ st1.lastArrayTables = _ ∧ st1.lastArrayTablesIndex = _ ∧ st1.lastTable = _ ∧ D.here = _) ∨
      (st1.lastArrayTables = _ ∧ st1.lastArrayTablesIndex = _ ∧ D.here = _ ∧ (_ → st1.lastTable = _) ∧ (_ → ∃ t, st1.lastTable = _))
    rw [a1, a2, a3]
    exact ht.top

end Sections
end Tomllib

namespace Tomllib
namespace Sections

/-! ## Headers -/

theorem mem_onWay {N a : List Str} : a ∈ onWay N ↔ a ≠ [] ∧ a <+: N := by
  unfold onWay
  simp only [List.mem_map, List.mem_range]
  constructor
  · rintro ⟨i, hi, rfl⟩
    refine ⟨?_, List.take_prefix _ _⟩
    intro h
    have := congrArg List.length h
    simp at this
    rw [this] at hi
    simp at hi
  · rintro ⟨h1, y, rfl⟩
    cases a with
    | nil => exact absurd rfl h1
    | cons k a => exact ⟨a.length, by simp; omega, by simp⟩

/-- Names on the way which are not arrays of tables. -/
theorem target_free {D : Sections} {A ks : List Str} {b : List Key} (hA : D.path [] A = b)
    (H : ∀ x y, x ≠ [] → y ≠ [] → x ++ y = ks → D.count (D.target (A ++ x)) = none) :
    ∀ (n : Nat) (x y : List Str), x.length = n → x ≠ [] → x ++ y = ks → D.target (A ++ x) = b ++ Tomllib.names x := by
  intro n
  induction n using Nat.strongRecOn with
  | ind n ih =>
    intro x y hn hx e
    refine target_append hA hx fun x' y' hx' hy' e' => ?_
    have hlt : x'.length < n := by
      rw [← hn, ← e', List.length_append]
      have := List.length_pos_iff.mpr hy'
      omega
    have e2 : x' ++ (y' ++ y) = ks := by rw [← List.append_assoc, e', e]
    rw [← ih x'.length hlt x' (y' ++ y) rfl hx' e2]
    exact H x' (y' ++ y) hx' (by simp [hy']) e2

theorem foldl_dup {p : List Key} : ∀ (d : List (List Key × Str)) (l : List Str), (∀ e ∈ d, e.1 = p → e.2 ∈ l) →
    d.foldl (fun l e => if e.1 = p ∧ e.2 ∉ l then l ++ [e.2] else l) l = l
  | [], _, _ => rfl
  | e :: d, l, h => by
    rw [List.foldl_cons, if_neg (fun h' => h'.2 (h e (by simp) h'.1))]
    exact foldl_dup d l fun e he => h e (by simp [he])

/-- Names which are there already make no difference. -/
theorem namesOf_dup {D D' : Sections} {d w : List (List Key × Str)} (hd : ∀ e ∈ d, e ∈ D.names) (p : List Key) :
    namesOf { D with names := D.names ++ (d ++ w) } p = namesOf { D with names := D.names ++ w } p := by
  show List.foldl _ _ (D.names ++ (d ++ w)) = List.foldl _ _ (D.names ++ w)
  rw [List.foldl_append, List.foldl_append, List.foldl_append, foldl_dup d]
  intro e he hp
  have : e.2 ∈ D.namesOf p := mem_namesOf.mpr (by rw [← hp]; exact hd e he)
  exact this

/-- The same up to repeated names. -/
structure Same (D D' : Sections) : Prop where
  vals : D'.vals = D.vals
  heads : D'.heads = D.heads
  arrs : D'.arrs = D.arrs
  stray : D'.stray = D.stray
  namesOf : ∀ p, D'.namesOf p = D.namesOf p

theorem Same.names {D D' : Sections} (s : Same D D') (e : List Key × Str) : e ∈ D'.names ↔ e ∈ D.names := by
  rw [show e = (e.1, e.2) from rfl, ← mem_namesOf, ← mem_namesOf, s.namesOf]

theorem Same.isTable {D D' : Sections} (s : Same D D') (p : List Key) : D'.isTable p ↔ D.isTable p := by
  unfold Sections.isTable
  rw [s.heads, s.arrs]
  simp only [s.names]

theorem Same.spot {D D' : Sections} (s : Same D D') (p : List Key) : D'.Spot p ↔ D.Spot p := by
  unfold Sections.Spot
  rw [s.heads, s.arrs, s.vals]
  simp only [s.names]

theorem Same.solid {D D' : Sections} (s : Same D D') {p : List Key} (h : D.Solid p) : D'.Solid p :=
  h.mono (fun e he => (s.names e).mpr he) (fun a n hn => ⟨n, by rw [count_congr s.arrs]; exact hn, Nat.le_refl _⟩)

theorem Same.down {D D' : Sections} (s : Same D D') {p : List Key} (h : D.Down p) : D'.Down p := by
  intro a k hk hne
  rw [valueAt_congr s.vals, count_congr s.arrs, s.isTable]
  exact h a k ((s.names _).mp hk) hne

theorem Same.good {D D' : Sections} (s : Same D D') {K : List Key → Option HashValue} {h : Heap} (g : D.Good K h) : D'.Good K h := by
  refine ⟨fun p hp => ?_, fun r hr => s.solid (g.closed r ((s.spot r).mp hr)), fun r hr => g.wf r ((s.spot r).mp hr), fun e he => g.nwf e ((s.names e).mp he), fun e he => g.pos e (by rw [← s.arrs]; exact he)⟩
  have := (g.slot p hp).congr [] (D' := D') (K' := K) rfl (valueAt_congr s.vals p) (count_congr s.arrs p) (s.isTable p) (s.namesOf p) (fun _ => s.stray) (by rw [s.heads])
  rwa [List.append_nil] at this

theorem Open.elem {D : Sections} {K : List Key → Option HashValue} {h : Heap} (g : D.Good K h) {ts : List TableType} {is : List Nat} {A : List Str} {b : List Key} (ho : D.Open ts is A b) :
    D.isTable b ∧ D.Solid b := by
  cases ho with
  | nil => exact ⟨.inl rfl, by simp, by simp⟩
  | @snoc ts is A b t ks c ho hw hn hne hb hk =>
    have hm := count_mem hk
    refine ⟨.inr (.inr (.inl ⟨_, hm, by simp⟩)), ?_⟩
    exact (g.closed _ (.inr (.inr (.inl ⟨_, hm, rfl⟩)))).elem hk (by omega)

/-- The names of a header are entered. -/
theorem enter_header {D : Sections} {m : KMap} {h : Heap} (g : D.Good (KP m) h) (ho : Only m) (hd : ∀ Y, D.Down Y) {cts : List TableType} {cis : List Nat} {A : List Str} {b : List Key}
    (hO : D.Open cts cis A b) {t : TableType} (hw : t.wf) {ks : List Str} (hn : t.table.names = A ++ ks) (hne : ks ≠ [])
    (hway : ∀ x y, x ≠ [] → y ≠ [] → x ++ y = ks → D.valueAt (b ++ Tomllib.names x) = none ∧ D.count (b ++ Tomllib.names x) = none) (hcl : D.clear t.table.names) :
    ∃ m', addImplicitTables m h cts cis t = .ok m' ∧ Good { D with names := D.names ++ D.way [] t.table.names } (KP m') h ∧ Only m' ∧
      Down { D with names := D.names ++ D.way [] t.table.names } (b ++ Tomllib.names ks) ∧ Solid { D with names := D.names ++ D.way [] t.table.names } (b ++ Tomllib.names ks) := by
  have hc := hO.chain g
  have hwf := hO.wf
  have hN : NamesWf t.table.names := Table.namesWf hw.2
  have hwk : PathWf (b ++ Tomllib.names ks) := hwf.2.1.append' (NamesWf.path (by rw [hn] at hN; exact hN.right))
  have hp := hO.path g
  have hel := hO.elem g
  have hsl := g.slot b hwf.2.1
  obtain ⟨m', e1, e2, e3, e4, e5⟩ := implicitLoop_path (h := h) ks D m b true
    ⟨fun p hp _ => g.slot p hp, hsl.tab hel.1, hsl.val_tab hel.1, hsl.arr_tab hel.1, hel.2, g.closed, g.wf, g.nwf, g.pos, hd b⟩ ho hne hwk hway (by
      intro hb h2 h3
      have hA : A = [] := hwf.2.2.1.mpr hb
      rw [hA, List.nil_append] at hn
      unfold Sections.clear at hcl
      rw [hn] at hcl
      exact hcl h2 h3)
  have hs : Same (D.withWay b ks) { D with names := D.names ++ D.way [] t.table.names } := by
    refine ⟨rfl, rfl, rfl, rfl, fun p => ?_⟩
    have : D.way [] t.table.names = D.way [] A ++ wayN b ks := by
      rw [hn, way_append, hp.1, way_names D ks b fun x y hx hy e => (hway x y hx hy e).2]
    rw [this]
    exact namesOf_dup (D' := D) hp.2.2 p
  refine ⟨m', ?_, hs.good e2, e3, hs.down e4, hs.solid e5⟩
  rw [← e1]
  show addImplicitTables m h cts cis t = _
  have hnm : t.table.keys.map (·.key) = A ++ ks := hn
  unfold addImplicitTables
  by_cases hb : b = []
  · have hA : A = [] := hwf.2.2.1.mpr hb
    have hts : cts = [] := hwf.2.2.2.mp hA
    subst hts
    have hcis : cis = [] := by
      have := hc.len.1
      simp at this
      exact List.length_eq_zero_iff.mp this.symm
    subst hcis
    subst hb
    subst hA
    rw [hnm]
    simp [getArrayTableKey, arrayTableKeyLoop, Out.bind_eq, Out.bind, parP]
  · rw [hc.top h hb]
    have hA : A ≠ [] := fun h => hb (hwf.2.2.1.mp h)
    have hts : cts ≠ [] := fun h => hA (hwf.2.2.2.mpr h)
    obtain ⟨u, hu⟩ : ∃ u, cts.getLast? = some u := ⟨_, List.getLast?_eq_some_getLast hts⟩
    obtain ⟨u', rfl, hu2, _⟩ := hO.last u hu
    have hlen : (TableType.arr u').table.keys.length = A.length := by rw [← hu2]; simp [Table.names, TableType.table]
    simp only [Out.bind_eq, Out.bind, hu, Bool.not_true, Bool.false_eq_true, if_false]
    rw [if_neg (keyOf_ne_root hwf.2.1), hlen, parP_ne hb]
    have : List.drop A.length (List.map (fun x => x.key) t.table.keys) = ks := by rw [hnm]; simp
    rw [this]

end Sections
end Tomllib

namespace Tomllib
namespace Sections

theorem joinDot_prefix : ∀ (P x : List Str), joinDot P <+: joinDot (P ++ x)
  | [], x => by simp [joinDot]
  | [k], [] => by simp
  | [k], j :: x => by
    have : joinDot [k] = k := by simp [joinDot]
    rw [this, List.singleton_append, joinDot_cons k (by simp), List.append_assoc]; exact List.prefix_append _ _
  | k :: k' :: P, x => by
    rw [List.cons_append, joinDot_cons k (by simp), joinDot_cons k (by simp)]
    exact (List.prefix_append_right_inj _).mpr (joinDot_prefix (k' :: P) x)

theorem keyStr_join {t : TableType} (h : NamesWf t.table.names) : t.keyStr = joinKey t.table.names := by
  rw [joinKey_eq, nkey_joinDot h]; rfl

theorem keyStr_inj {t u : TableType} (ht : NamesWf t.table.names) (hu : NamesWf u.table.names) (h : t.keyStr = u.keyStr) : t.table.names = u.table.names := by
  rw [keyStr_join ht, keyStr_join hu, joinKey_eq, joinKey_eq] at h
  exact nkey_inj ht hu h

theorem keyStr_congr {t u : TableType} (h : t.table.names = u.table.names) : t.keyStr = u.keyStr := by
  show joinDot t.table.names = joinDot u.table.names
  rw [h]

/-- Which of the open arrays of tables a header is inside of. -/
theorem isSub_iff {D : Sections} {t u : TableType} (ht : NamesWf t.table.names) (hu : NamesWf u.table.names) (hm : u.table.names ∈ D.opened) (ha : D.apart t.table.names) :
    t.isSubtableOf u = true ↔ u.table.names <+: t.table.names := by
  unfold TableType.isSubtableOf
  constructor
  · intro h
    rw [keyStr_join ht, keyStr_join hu] at h
    exact List.isPrefixOf_iff_prefix.mp (ha _ hm h)
  · rintro ⟨x, hx⟩
    rw [List.isPrefixOf_iff_prefix]
    show joinDot u.table.names <+: joinDot t.table.names
    rw [← hx]
    exact joinDot_prefix _ _

theorem sameTop_false {D : Sections} {K : List Key → Option HashValue} {h : Heap} (g : D.Good K h) {t : TableType} (ht : t.wf) {cts : List TableType} {cis : List Nat} {A : List Str} {b : List Key} (hO : D.Open cts cis A b)
    (hn : A ≠ t.table.names) : sameTop t cts = false := by
  unfold sameTop
  cases e : cts.getLast? with
  | none => rfl
  | some top =>
    obtain ⟨u, rfl, hu, _⟩ := hO.last top e
    simp only [decide_eq_false_iff_not]
    intro hk
    have hm := (hO.counted g _ (List.mem_of_getLast? e)).2.2.2
    exact hn (by rw [keyStr_inj (Table.namesWf ht.2) hm hk, ← hu]; rfl)

theorem stdPop_eq {D : Sections} {K : List Key → Option HashValue} {h : Heap} (g : D.Good K h) {st : PState} {t : Table} (ht : (TableType.std t).wf) {cts : List TableType} {cis : List Nat} {A : List Str} {b here : List Key}
    (hO : D.Open cts cis A b) (hT : Tops st cts cis A b here) (hop : D.opened = cts.map (·.table.names)) (hap : D.apart t.names) (hnot : t.names ∉ D.opened) :
    stdPop (.std t) st.lastArrayTables st.lastArrayTablesIndex = popLoop (fun top => (TableType.std t).isSubtableOf top) cts.length cts cis := by
  have hmem : ∀ u ∈ cts, u.table.names ∈ D.opened := fun u hu => by rw [hop]; exact List.mem_map_of_mem hu
  have hN : NamesWf t.names := Table.namesWf ht.2
  have htne : t.names ≠ [] := by
    intro h
    have := ht.1
    simp [Table.names] at h
    exact this h
  have hAne : A ≠ t.names := by
    rintro rfl
    have hts : cts ≠ [] := fun h => htne (hO.wf.2.2.2.mpr h)
    obtain ⟨u, hu⟩ : ∃ u, cts.getLast? = some u := ⟨_, List.getLast?_eq_some_getLast hts⟩
    obtain ⟨u', rfl, hu2, _⟩ := hO.last u hu
    exact hnot (by rw [← hu2]; exact hmem _ (List.mem_of_getLast? hu))
  have hsame : ∀ cts' cis' A' b', D.Open cts' cis' A' b' → (∀ u ∈ cts', u ∈ cts) → sameTop (.std t) cts' = false := by
    intro cts' cis' A' b' hO' hsub
    refine sameTop_false g ht hO' ?_
    rintro rfl
    have hts : cts' ≠ [] := fun h => htne (hO'.wf.2.2.2.mpr h)
    obtain ⟨u, hu⟩ : ∃ u, cts'.getLast? = some u := ⟨_, List.getLast?_eq_some_getLast hts⟩
    obtain ⟨u', rfl, hu2, _⟩ := hO'.last u hu
    refine hnot ?_
    have hu2' : u'.names = t.names := hu2
    rw [← hu2']; exact hmem _ (hsub _ (List.mem_of_getLast? hu))
  rcases hT.top with ⟨t0, ks0, _, _, _, h1, h2, _⟩ | ⟨h1, h2, _⟩
  · rw [h1, h2, stdPop]
    have : isTopStd (cts ++ [.std t0]) = true := by simp [isTopStd]
    simp only [this, Bool.true_or, if_true, List.dropLast_concat]
    rw [hsame _ _ _ _ hO (fun _ h => h)]
    rfl
  · rw [h1, h2, stdPop]
    have : isTopStd cts = false := by
      unfold isTopStd
      cases e : cts.getLast? with
      | none => rfl
      | some u =>
        obtain ⟨u', rfl, _⟩ := hO.last u e
        rfl
    simp only [this, Bool.false_or]
    by_cases he : equalKeyLength (.std t) cts = true
    · rw [he]
      simp only [if_true]
      cases hO with
      | nil => simp [equalKeyLength] at he
      | @snoc ts is A b u ks c ho hw hn hne hb hk =>
        rw [List.dropLast_concat, List.dropLast_concat, hsame _ _ _ _ ho (by simp +contextual)]
        simp only [Bool.false_eq_true, if_false]
        rw [List.length_append, List.length_singleton, popLoop, List.getLast?_concat]
        dsimp only
        have hl : t.names.length = u.names.length := by
          simp [equalKeyLength, TableType.table] at he
          simpa [Table.names] using of_decide_eq_true he
        rw [if_neg, List.dropLast_concat, List.dropLast_concat]
        intro hsub
        have := (isSub_iff (t := .std t) (u := .arr u) hN (Table.namesWf hw.2) (hmem _ (by simp)) hap).mp hsub
        exact hAne (this.eq_of_length hl.symm)
    · rw [Bool.not_eq_true] at he
      rw [he]
      simp only [Bool.false_eq_true, if_false]
      rw [hsame _ _ _ _ hO (fun _ h => h)]
      rfl

/-- The arrays of tables which stay open. -/
theorem Open.keep {D : Sections} {K : List Key → Option HashValue} {h : Heap} (g : D.Good K h) {t : TableType} (ht : t.wf) {cts cts' rest : List TableType} {cis' : List Nat} {A' : List Str} {b' : List Key}
    (hO : D.Open cts' cis' A' b') (hop : D.opened = cts.map (·.table.names)) (hap : D.apart t.table.names) (he : cts = cts' ++ rest)
    (hrest : ∀ u ∈ rest, t.isSubtableOf u = false) (hwr : ∀ u ∈ cts, NamesWf u.table.names) (hlast : ∀ u, cts'.getLast? = some u → t.isSubtableOf u = true) :
    (D.opened.filter fun P => P.isPrefixOf t.table.names) = cts'.map (·.table.names) ∧ A' <+: t.table.names := by
  have hN : NamesWf t.table.names := Table.namesWf ht.2
  have hmem : ∀ u ∈ cts, u.table.names ∈ D.opened := fun u hu => by rw [hop]; exact List.mem_map_of_mem hu
  have hA : A' <+: t.table.names := by
    by_cases h0 : cts' = []
    · rw [hO.wf.2.2.2.mpr h0]; exact List.nil_prefix
    · have hu := List.getLast?_eq_some_getLast h0
      obtain ⟨u', hu1, hu2, _⟩ := hO.last _ hu
      have hmu : cts'.getLast h0 ∈ cts := by rw [he]; simp
      have := (isSub_iff hN (hwr _ hmu) (hmem _ hmu) hap).mp (hlast _ hu)
      rw [hu1] at this
      rw [← hu2]; exact this
  refine ⟨?_, hA⟩
  rw [hop, he, List.map_append, List.filter_append]
  have h1 : List.filter (fun P => P.isPrefixOf t.table.names) (cts'.map (·.table.names)) = cts'.map (·.table.names) := by
    rw [List.filter_eq_self]
    intro P hP
    simp only [List.mem_map] at hP
    obtain ⟨u, hu, rfl⟩ := hP
    exact List.isPrefixOf_iff_prefix.mpr ((hO.counted g u hu).2.1.trans hA)
  have h2 : List.filter (fun P => P.isPrefixOf t.table.names) (rest.map (·.table.names)) = [] := by
    rw [List.filter_eq_nil_iff]
    intro P hP
    simp only [List.mem_map] at hP
    obtain ⟨u, hu, rfl⟩ := hP
    intro hpre
    have hmu : u ∈ cts := by rw [he]; simp [hu]
    have := (isSub_iff hN (hwr _ hmu) (hmem _ hmu) hap).mpr (List.isPrefixOf_iff_prefix.mp hpre)
    rw [hrest u hu] at this
    simp at this
  rw [h1, h2, List.append_nil]

end Sections
end Tomllib

namespace Tomllib
namespace Sections

/-! ## The header of a table -/

theorem Good.noHas {D : Sections} {m : KMap} {h : Heap} (g : D.Good (KP m) h) {p : List Key} (hp : PathWf p) (hne : p ≠ []) (hv : D.valueAt p = none) :
    keyHasValue m h (keyOf [] p) = false := by
  have hs := g.slot p hp
  unfold keyHasValue
  rw [KP_ne hne]
  by_cases ht : D.isTable p
  · obtain ⟨v, l, e1, _, e3, e4⟩ := hs.tab ht
    rw [e1]
    by_cases hh : p ∈ D.heads
    · obtain ⟨a, rfl, h2⟩ := e3 hh
      simp [h2]
    · rw [e4 hh]
  · cases hc : D.count p with
    | none => rw [hs.none hv hc ht]
    | some n => rw [hs.arr n hc]

theorem Good.noDef {D : Sections} {m : KMap} {h : Heap} (g : D.Good (KP m) h) {p : List Key} (hp : PathWf p) (hne : p ≠ []) (hv : D.valueAt p = none) (hh : p ∉ D.heads) :
    tableDefined m h (keyOf [] p) = false := by
  have hs := g.slot p hp
  unfold tableDefined
  rw [KP_ne hne]
  by_cases ht : D.isTable p
  · obtain ⟨v, l, e1, _, e3, e4⟩ := hs.tab ht
    rw [e1, e4 hh]
  · cases hc : D.count p with
    | none => rw [hs.none hv hc ht]
    | some n => rw [hs.arr n hc]

theorem Good.noKids {D : Sections} {m : KMap} {h : Heap} (g : D.Good (KP m) h) {p : List Key} {k : Str} (hp : PathWf (p ++ [.str k])) (hv : D.valueAt (p ++ [.str k]) = none)
    (hc : D.count (p ++ [.str k]) = none) (hk : ∀ e ∈ D.vals, e.1.dropLast ≠ p ++ [.str k]) : keyHasChildrenWithValues m h (keyOf [] (p ++ [.str k])) = .ok false := by
  have hs := g.slot _ hp
  have hne : p ++ [Key.str k] ≠ [] := by simp
  unfold keyHasChildrenWithValues
  rw [if_neg (keyOf_ne_root hp), KP_ne hne]
  by_cases ht : D.isTable (p ++ [.str k])
  · have hsol : D.Solid (p ++ [.str k]) := by
      rcases ht with h | h | ⟨e, he, h⟩ | ⟨e, he, h⟩
      · simp at h
      · exact g.closed _ (.inr (.inl h))
      · have := List.append_inj' h rfl
        simp at this
      · exact g.closed _ (.inr (.inr (.inr ⟨e, he, h⟩)))
    obtain ⟨v, l, e1, e2, _⟩ := hs.tab ht
    rw [e1]
    dsimp only
    unfold Lists at e2
    rw [if_neg hne] at e2
    congr 1
    rw [List.any_eq_false]
    intro x hx
    have hxn : (p ++ [.str k], x) ∈ D.names := mem_namesOf.mp (by rw [← e2]; exact hx)
    have hw : PathWf (p ++ [.str k] ++ [.str x]) := hp.push (g.nwf _ hxn)
    have hkey : keyOf [] (p ++ [.str k]) ++ lit% "." ++ x = keyOf [] (p ++ [.str k] ++ [.str x]) := by
      rw [← dotP_add hp, dotP, if_neg hne]
    rw [hkey, g.noHas hw (by simp)]
    · simp
    · rw [valueAt_none]
      intro e he hpre
      rcases prefix_or (q := []) hpre with h1 | h1
      · exact absurd h1 (g.noVal hsol hv e he)
      · have : e.1 = p ++ [.str k] ++ [.str x] := hpre.eq_of_length (Nat.le_antisymm hpre.length_le h1.length_le)
        exact absurd (by rw [this, List.dropLast_concat]) (hk e he)
  · rw [hs.none hv hc ht]

theorem Open.parentCount {D : Sections} {ts : List TableType} {is : List Nat} {A : List Str} {b : List Key} (ho : D.Open ts is A b) (hb : b ≠ []) :
    ∃ c, D.count b.dropLast = some (c + 1) ∧ PathWf b.dropLast ∧ b.dropLast ≠ [] ∧ b = b.dropLast ++ [.idx c] := by
  have hw := ho.wf.2.1
  cases ho with
  | nil => exact absurd rfl hb
  | snoc t ks c ho hw' hn hne hb hk =>
    rw [List.dropLast_concat]
    exact ⟨c, hk, hw.left, by simp [names_ne hne], rfl⟩

theorem insertUniq_mem {l : List Str} {k : Str} (h : k ∈ l) : (insertUniq l k).1 = l := by
  unfold insertUniq
  simp [h]

/-- The entries of a new table and of the table above. -/
theorem std_entries {D : Sections} {m : KMap} {h : Heap} (g : D.Good (KP m) h) (ho : Only m) {b : List Key} {ks : List Str} (hne : ks ≠ []) (hw : PathWf (b ++ Tomllib.names ks))
    (nv : D.valueAt (b ++ Tomllib.names ks) = none) (nc : D.count (b ++ Tomllib.names ks) = none) (hh : b ++ Tomllib.names ks ∉ D.heads)
    (hnames : ∀ x k y, x ++ k :: y = ks → (b ++ Tomllib.names x, k) ∈ D.names) {D' : Sections} (h1 : D'.heads = D.heads ++ [b ++ Tomllib.names ks]) (h2 : D'.names = D.names)
    (h3 : D'.stray = if ks.length = 1 ∧ b ≠ [] then D.stray ++ [ks.getLastD []] else D.stray) :
    ∃ m', stdParent (stdEntry m h.length (keyOf [] (b ++ Tomllib.names ks))) (if ks.length = 1 then root else keyOf [] (b ++ Tomllib.names ks.dropLast)) (ks.getLastD []) = .ok m' ∧ Only m' ∧
      KP m' (b ++ Tomllib.names ks) = some ⟨some h.length, .keys (D.namesOf (b ++ Tomllib.names ks))⟩ ∧
      (∀ q, PathWf q → q ≠ b ++ Tomllib.names ks → q ≠ [] → KP m' q = KP m q) ∧ D'.TabEntry (KP m') (h ++ [.table]) [] := by
  generalize hT : b ++ Tomllib.names ks = T at *
  have hTne : T ≠ [] := by rw [← hT]; simp [names_ne hne]
  have hpT : parP T = keyOf [] T := parP_ne hTne
  have hs := g.slot T hw
  have hent : stdEntry m h.length (keyOf [] T) = m.insert (parP T) ⟨some h.length, .keys (D.namesOf T)⟩ := by
    unfold stdEntry
    rw [KP_ne hTne, hpT]
    by_cases ht : D.isTable T
    · rw [hs.tab_eq ht hTne hh]
    · rw [hs.none nv nc ht, namesOf_nil fun k hk => ht (isTable_names hk)]
  rw [hent]
  have hK2 : ∀ q, PathWf q → KP (m.insert (parP T) ⟨some h.length, .keys (D.namesOf T)⟩) q = if T = q then some ⟨some h.length, .keys (D.namesOf T)⟩ else KP m q := fun q hq => KP_insert hw hq _
  have ho2 : Only (m.insert (parP T) ⟨some h.length, .keys (D.namesOf T)⟩) := ho.insert hw _
  generalize m.insert (parP T) ⟨some h.length, .keys (D.namesOf T)⟩ = m2 at *
  obtain ⟨v0, l0, r1, r2, r3, r4⟩ := (g.slot [] trivial).tab (.inl rfl)
  have hlast : ks.dropLast ++ [ks.getLastD []] = ks := by
    rw [List.getLastD_eq_getLast?, List.getLast?_eq_some_getLast hne]
    exact List.dropLast_concat_getLast hne
  have hr0 : KP m2 [] = some ⟨v0, .keys l0⟩ := by rw [hK2 [] trivial, if_neg hTne]; exact r1
  have hv0 : ([] ∈ D'.heads → ∃ a, v0 = some a ∧ (h ++ [TVal.table])[a]? = some .table) ∧ ([] ∉ D'.heads → v0 = none) := by
    rw [h1]
    refine ⟨fun hm => ?_, fun hm => r4 fun h => hm (by simp [h])⟩
    rw [List.mem_append, List.mem_singleton] at hm
    obtain ⟨a, f1, f2⟩ := r3 (hm.resolve_right (Ne.symm hTne))
    exact ⟨a, f1, by rw [List.getElem?_append_left]; exact f2; exact (List.getElem?_eq_some_iff.mp f2).1⟩
  unfold Lists at r2
  rw [if_pos rfl] at r2
  have hnN : D'.namesOf [] = D.namesOf [] := namesOf_congr h2 []
  by_cases h1' : ks.length = 1
  · obtain ⟨k, rfl⟩ := List.length_eq_one_iff.mp h1'
    rw [if_pos h1']
    have hroot : m2.get? root = some ⟨v0, .keys l0⟩ := by
      have : parP [] = root := by simp [parP]
      rw [← this]; exact hr0
    rw [stdParent, hroot]
    refine ⟨_, rfl, ?_, ?_, ?_, ?_⟩
    · have := ho2.insert (p := []) trivial ⟨v0, .keys (insertUniq l0 ([k].getLastD [])).1⟩
      simpa [parP] using this
    · have := KP_insert (m := m2) (v := ⟨v0, .keys (insertUniq l0 ([k].getLastD [])).1⟩) (p := []) trivial hw
      simp only [parP, if_true] at this
      rw [this, if_neg (Ne.symm hTne), hK2 T hw, if_pos rfl]
    · intro q hq hqT hq0
      have := KP_insert (m := m2) (v := ⟨v0, .keys (insertUniq l0 ([k].getLastD [])).1⟩) (p := []) trivial hq
      simp only [parP, if_true] at this
      rw [this, if_neg (Ne.symm hq0), hK2 q hq, if_neg (Ne.symm hqT)]
    · refine ⟨v0, (insertUniq l0 ([k].getLastD [])).1, ?_, ?_, hv0⟩
      · have := KP_insert (m := m2) (v := ⟨v0, .keys (insertUniq l0 ([k].getLastD [])).1⟩) (p := []) (q := []) trivial trivial
        simp only [parP, if_true] at this
        exact this
      · unfold Lists
        rw [if_pos rfl, hnN, h3]
        by_cases hb : b = []
        · have : k ∈ l0 := (r2.2 k).mpr (.inl (mem_namesOf.mpr (by simpa [hb, Tomllib.names] using hnames [] k [] rfl)))
          rw [insertUniq_mem (by simpa using this), if_neg (by simp [hb])]
          exact r2
        · rw [if_pos ⟨h1', hb⟩]
          refine ⟨by simp, fun x => ?_⟩
          rw [mem_insertUniq, r2.2 x]
          simp only [List.mem_append, List.mem_singleton]
          grind
  · rw [if_neg h1']
    have hdl : ks.dropLast ≠ [] := by
      intro h
      have := congrArg List.length h
      simp at this
      have := List.length_pos_iff.mpr hne
      omega
    have hp : b ++ Tomllib.names ks.dropLast ≠ [] := by simp [names_ne hdl]
    have hTe : T = b ++ Tomllib.names ks.dropLast ++ [.str (ks.getLastD [])] := by
      rw [← hT]
      conv => lhs; rw [← hlast]
      simp [Tomllib.names]
    have hpw : PathWf (b ++ Tomllib.names ks.dropLast) := by rw [hTe] at hw; exact hw.left
    have hpT : T ≠ b ++ Tomllib.names ks.dropLast := by
      rw [hTe]; simp
    obtain ⟨v, l, e1, e2⟩ := g.hasName (hnames ks.dropLast (ks.getLastD []) [] hlast)
    have hk2 : m2.get? (keyOf [] (b ++ Tomllib.names ks.dropLast)) = some ⟨v, .keys l⟩ := by
      rw [KP_ne hp, hK2 _ hpw, if_neg hpT]; exact e1
    rw [stdParent, hk2]
    dsimp only
    rw [insertUniq_mem e2, ← parP_ne hp]
    have hK3 : ∀ q, PathWf q → KP (m2.insert (parP (b ++ Tomllib.names ks.dropLast)) ⟨v, .keys l⟩) q = KP m2 q := by
      intro q hq
      rw [KP_insert hpw hq]
      split
      next h => subst h; rw [← KP_ne hp, hk2]
      · rfl
    refine ⟨_, rfl, ho2.insert hpw _, by rw [hK3 T hw, hK2 T hw, if_pos rfl], fun q hq hqT hq0 => by rw [hK3 q hq, hK2 q hq, if_neg (Ne.symm hqT)], v0, l0, by rw [hK3 [] trivial]; exact hr0, ?_, hv0⟩
    unfold Lists
    rw [if_pos rfl, hnN, h3, if_neg (by simp [h1'])]
    exact r2

end Sections
end Tomllib

namespace Tomllib
namespace Sections

theorem Only.none {m : KMap} (h : Only m) : m.get? [] = none := by
  cases e : m.get? [] with
  | none => rfl
  | some v =>
    obtain ⟨p, hp, h1⟩ := h [] (by rw [e]; simp)
    unfold parP at h1
    split at h1
    · simp [root] at h1
    next hne => exact absurd h1.symm (keyOf_ne_nil hp hne)

theorem addToTableSet_none {D : Sections} {m m1 : KMap} {h : Heap} (g : D.Good (KP m) h) (ho : Only m1) {cts : List TableType} {cis : List Nat} {A : List Str} {b : List Key}
    (hO : D.Open cts cis A b) (hc : ∀ n, D.count b.dropLast = some n → KP m1 b.dropLast = some ⟨none, .count n⟩) (k : Str) : addToTableSet m1 cts cis k = .ok m1 := by
  unfold addToTableSet
  rw [(hO.chain g).parent, Out.bind_eq, Out.bind]
  by_cases hb : b = []
  · subst hb
    have : m1.get? (keyOf [] [].dropLast) = none := Only.none ho
    rw [this]
  · obtain ⟨c, h1, h2, h3, _⟩ := hO.parentCount hb
    rw [KP_ne h3, hc _ h1]

theorem wf_names {t : TableType} (h : t.wf) : t.table.names ≠ [] ∧ NamesWf t.table.names := by
  refine ⟨fun e => h.1 ?_, Table.namesWf h.2⟩
  simpa [Table.names] using e

theorem SimE.std {D : Sections} {st : PState} {E : List ParseError} (h : D.SimE E st) {w1 w2 : Str} {t : Table} {c : Option Str} (hw : (TableType.std t).wf) (hf : D.fits (.table w1 (.std t) w2 c)) :
    ∃ st', (ET.table w1 (.std t) w2 c).eff st = .ok st' ∧ (D.step (.table w1 (.std t) w2 c)).SimE E st' := by
  obtain ⟨f1, f2, f3, f4, f5⟩ := hf
  obtain ⟨cts0, cis0, A0, b0, hO0, hT0, hop⟩ := h.stack
  have hN := wf_names hw
  have g := h.good
  have hwr : ∀ u ∈ cts0, NamesWf u.table.names := fun u hu => (hO0.counted g u hu).2.2.2
  have hnot : t.names ∉ D.opened := by
    intro hm
    rw [hop, List.mem_map] at hm
    obtain ⟨u, hu, e⟩ := hm
    have := (hO0.counted g u hu).1
    rw [e] at this
    exact ((f1 t.names (mem_onWay.mpr ⟨hN.1, List.prefix_refl _⟩)).2 this).2 rfl
  have hpop := stdPop_eq g hw hO0 hT0 hop f4 hnot
  obtain ⟨cts, cis, A, b, rest, p1, hO, p3, p4, p5, _⟩ := hO0.pop (fun top => (TableType.std t).isSubtableOf top)
  rw [p1] at hpop
  obtain ⟨hfil, ks, hks⟩ := hO.keep g hw hop f4 p3 p4 hwr p5
  have hks' : t.names = A ++ ks := hks.symm
  have hsub : ∀ u ∈ cts, u.table.names ∈ D.opened := fun u hu => by rw [hop, p3]; exact List.mem_map_of_mem (by simp [hu])
  have hAin : A ≠ [] → A ∈ D.opened := by
    intro hA
    have hts : cts ≠ [] := fun h => hA (hO.wf.2.2.2.mpr h)
    have hu := List.getLast?_eq_some_getLast hts
    obtain ⟨u', hu1, hu2, _⟩ := hO.last _ hu
    have := hsub _ (List.getLast_mem hts)
    rw [hu1] at this
    rw [← hu2]; exact this
  have hne : ks ≠ [] := by
    rintro rfl
    rw [List.append_nil] at hks'
    exact hnot (by rw [hks']; exact hAin (by rw [← hks']; exact hN.1))
  have hAN : A ≠ t.names := by rw [hks']; simp [hne]
  -- what is open and on the way is above `A`
  have hnopen : ∀ x y, x ≠ [] → x ++ y = ks → A ++ x ∉ D.opened := by
    intro x y hx e hm
    have : A ++ x ∈ D.opened.filter fun P => P.isPrefixOf t.names := by
      rw [List.mem_filter, List.isPrefixOf_iff_prefix]
      exact ⟨hm, y, by rw [List.append_assoc, e, hks']⟩
    have h' : A ++ x ∈ cts.map (·.table.names) := by rw [← hfil]; exact this
    rw [List.mem_map] at h'
    obtain ⟨u, hu, e'⟩ := h'
    have := (hO.counted g u hu).2.1.length_le
    rw [e'] at this
    simp at this
    have := List.length_pos_iff.mpr hx
    omega
  have hon : ∀ x y, x ≠ [] → x ++ y = ks → D.valueAt (D.target (A ++ x)) = none ∧ D.count (D.target (A ++ x)) = none := by
    intro x y hx e
    have hm := f1 (A ++ x) (mem_onWay.mpr ⟨by simp [hx], y, by rw [List.append_assoc, e, hks']⟩)
    refine ⟨by simpa using hm.1, ?_⟩
    cases hc : D.count (D.target (A ++ x)) with
    | none => rfl
    | some n => exact absurd (hm.2 (by rw [hc]; simp)).1 (hnopen x y hx e)
  have hp := hO.path g
  have htf := fun x y => target_free hp.1 (fun x y hx _ e => (hon x y hx e).2) x.length x y rfl
  have hon' : ∀ x y, x ≠ [] → x ++ y = ks → D.valueAt (b ++ Tomllib.names x) = none ∧ D.count (b ++ Tomllib.names x) = none := by
    intro x y hx e
    rw [← htf x y hx e]
    exact hon x y hx e
  have hTt : D.target t.names = b ++ Tomllib.names ks := by rw [hks']; exact htf ks [] hne (by simp)
  have hwk : PathWf (b ++ Tomllib.names ks) := hO.wf.2.1.append' (NamesWf.path (by
    have := hN.2
    rw [show (TableType.std t).table.names = A ++ ks from hks'] at this
    exact this.right))
  have hwx : ∀ x y, x ++ y = ks → PathWf (b ++ Tomllib.names x) := by
    intro x y e
    rw [← e, names_append, ← List.append_assoc] at hwk
    exact hwk.left
  -- the checks
  obtain ⟨v, c1, c2⟩ := TChain.std st.heap (hO.chain g) hw hks' hne [] 0
  have hv : v = true := c2 fun x y hx e => g.noHas (hwx x y e) (by simp [names_ne hx]) (hon' x y hx e).1
  subst hv
  have hlast : ks.dropLast ++ [ks.getLastD []] = ks := by
    rw [List.getLastD_eq_getLast?, List.getLast?_eq_some_getLast hne]
    exact List.dropLast_concat_getLast hne
  have hdl : ks.length ≠ 1 → ks.dropLast ≠ [] := by
    intro h1 h
    have := congrArg List.length h
    simp at this
    have := List.length_pos_iff.mpr hne
    omega
  have hNd : t.names.dropLast = A ++ ks.dropLast := by rw [hks', List.dropLast_append_of_ne_nil hne]
  have hkids : keyHasChildrenWithValues st.map st.heap (if ks.length = 1 then root else keyOf [] (b ++ Tomllib.names ks.dropLast)) = .ok false := by
    by_cases h1 : ks.length = 1
    · rw [if_pos h1]; rfl
    · rw [if_neg h1]
      have hd := hdl h1
      have hno := hon' ks.dropLast _ hd hlast
      have hpath : D.path [] t.names.dropLast = b ++ Tomllib.names ks.dropLast := by
        rw [hNd, path_append, hp.1]
        exact path_names D _ _ fun x y hx e => (hon' x (y ++ [ks.getLastD []]) hx (by rw [← List.append_assoc, e, hlast])).2
      have hvals := f3 (by rw [hNd]; simp [hd]) (by rw [hNd]; exact hnopen _ _ hd hlast)
      rw [hpath] at hvals
      have hwd := hwx _ _ hlast
      have he : b ++ Tomllib.names ks.dropLast = b ++ Tomllib.names ks.dropLast.dropLast ++ [.str (ks.dropLast.getLast hd)] := by
        conv => lhs; rw [← List.dropLast_concat_getLast hd]
        simp [Tomllib.names]
      rw [he] at hno hwd hvals ⊢
      exact g.noKids hwd hno.1 hno.2 hvals
  have hdef : tableDefined st.map st.heap (keyOf [] (b ++ Tomllib.names ks)) = false :=
    g.noDef hwk (by simp [names_ne hne]) (hon' ks [] hne (by simp)).1 (by rw [← hTt]; exact f2)
  have hcheck : stdCheck st.map st.heap (.std t) cts cis = .ok (false, keyOf [] (b ++ Tomllib.names ks), if ks.length = 1 then root else keyOf [] (b ++ Tomllib.names ks.dropLast)) := by
    unfold stdCheck
    rw [sameTop_false g hw hO hAN]
    simp only [Bool.false_eq_true, if_false, Out.bind_eq, c1, Out.bind, Bool.not_true, hkids, hdef, Bool.or_self]
  -- the entries
  obtain ⟨m1, i1, i2, i3, i4, i5⟩ := enter_header g h.only h.down hO hw hks' hne (fun x y hx hy e => hon' x y hx e) f5
  have hadd := addToTableSet_none g i3 hO (fun n hn => by
    refine (i2.slot _ ?_).arr n hn
    by_cases hb : b = []
    · rw [hb]; trivial
    · exact (hO.parentCount hb).choose_spec.2.1) (t.names.getLastD [])
  have hgl : t.names.getLastD [] = ks.getLastD [] := by
    rw [hks', List.getLastD_eq_getLast?, List.getLastD_eq_getLast?, List.getLast?_append, List.getLast?_eq_some_getLast hne]; rfl
  have hno := hon' ks [] hne (by simp)
  have hstray : (D.step (.table w1 (.std t) w2 c)).stray = if ks.length = 1 ∧ b ≠ [] then D.stray ++ [ks.getLastD []] else D.stray := by
    show (if t.names.dropLast ∈ D.opened then D.stray ++ [t.names.getLastD []] else D.stray) = _
    rw [hgl]
    have : t.names.dropLast ∈ D.opened ↔ ks.length = 1 ∧ b ≠ [] := by
      rw [hNd]
      by_cases h1 : ks.length = 1
      · obtain ⟨k, rfl⟩ := List.length_eq_one_iff.mp h1
        simp only [List.dropLast_singleton, List.append_nil, List.length_singleton, true_and]
        constructor
        · intro hm hb
          rw [hO.wf.2.2.1.mpr hb, hop, List.mem_map] at hm
          obtain ⟨u, hu, e⟩ := hm
          exact (hO0.counted g u hu).2.2.1 e
        · intro hb
          exact hAin fun hA => hb (hO.wf.2.2.1.mp hA)
      · simp only [h1, false_and, iff_false]
        exact hnopen _ _ (hdl h1) hlast
    simp only [this]
  have hhd : b ++ Tomllib.names ks ∉ D.heads := by rw [← hTt]; exact f2
  have hnm : ∀ x k y, x ++ k :: y = ks → (b ++ Tomllib.names x, k) ∈ D.names ++ D.way [] t.names := by
    intro x k y e
    rw [hks', way_append, hp.1, way_names D ks b (fun x y hx _ e => (hon' x y hx e).2)]
    have := (mem_wayN ks b _ k).mpr ⟨x, y, e, rfl⟩
    simp [this]
  obtain ⟨m2, j1, j2, j3, j4, j5⟩ := std_entries (D := { D with names := D.names ++ D.way [] t.names }) i2 i3 hne hwk hno.1 hno.2 hhd hnm
    (D' := D.step (.table w1 (.std t) w2 c)) (by show D.heads ++ [D.target t.names] = _; rw [hTt]) rfl hstray
  have hs0 := i2.slot [] trivial
  obtain ⟨k1, k2, k3, k4⟩ := Good.head (D' := D.step (.table w1 (.std t) w2 c)) i2 i5 (by simp [names_ne hne]) hwk i4 hno.1 hno.2 rfl
    (by show D.heads ++ [D.target t.names] = _; rw [hTt]) rfl rfl j4 j3 j5 (hs0.val_tab (.inl rfl)) (hs0.arr_tab (.inl rfl))
  have hact : stdTableAct t (st.pushKs (t.keys.map (·.key))) = .ok ({ st with keychain := [], lastArrayTables := cts ++ [.std t], lastArrayTablesIndex := cis ++ [0], arrayError := false, map := m2, heap := st.heap ++ [TVal.table], lastTable := some (.std t) }, .std t) := by
    unfold stdTableAct
    have hlen : (st.pushKs (t.keys.map (·.key))).keychain.length = t.keys.length := by simp [PState.pushKs, h.kc]
    simp only [hlen, Nat.lt_irrefl, if_false, Nat.sub_self, List.take_zero]
    have e1 : (st.pushKs (t.keys.map (·.key))).lastArrayTables = st.lastArrayTables := rfl
    have e2 : (st.pushKs (t.keys.map (·.key))).lastArrayTablesIndex = st.lastArrayTablesIndex := rfl
    have e3 : (st.pushKs (t.keys.map (·.key))).map = st.map := rfl
    have e4 : (st.pushKs (t.keys.map (·.key))).heap = st.heap := rfl
    have e5 : (List.map (fun x => x.key) t.keys).getLastD [] = t.names.getLastD [] := rfl
    rw [e1, e2, e3, e4, e5, hpop]
    simp only [hcheck, Out.bind_eq, Out.bind, Bool.false_eq_true, if_false, i1, hadd]
    rw [hgl, j1]
    rfl
  refine ⟨_, by rw [ET.eff, TableType.eff, hact]; rfl, ?_⟩
  have hhere : (D.step (.table w1 (.std t) w2 c)).here = b ++ Tomllib.names ks := hTt
  have hmono : ∀ e ∈ D.names, e ∈ (D.step (.table w1 (.std t) w2 c)).names := fun e he => by simp [step, he]
  exact ⟨rfl, h.errs, j2, k1, k2, by rw [hhere]; exact k3, by rw [hhere]; exact k4, cts, cis, A, b, hO.mono hmono (fun _ _ _ => rfl),
    ⟨.inl ⟨t, ks, hw, hks', hne, rfl, rfl, rfl, hhere⟩, rfl⟩, hfil⟩

end Sections
end Tomllib

namespace Tomllib
namespace Sections

/-! ## The header of an array of tables -/

/-- The state after a header of an array of tables. -/
theorem SimE.elem {D D1 : Sections} {st st' : PState} {E : List ParseError} (h : D.SimE E st) {e : ET} {m1 m3 : KMap} (g : D1.Good (KP m1) st.heap) {T : List Key} (hT : T ≠ []) (hw : PathWf T) (hs : D1.Solid T)
    (hd : D1.Down T) (nv : D1.valueAt T = none) (nt : ¬ D1.isTable T) (h1 : (D.step e).vals = D1.vals) (h2 : (D.step e).heads = D1.heads) (h3 : (D.step e).names = D1.names)
    (h4 : (D.step e).arrs = (T, (D1.count T).getD 0 + 1) :: D1.arrs) (h5 : (D.step e).stray = D1.stray) (h6 : (D.step e).here = T ++ [.idx ((D1.count T).getD 0)])
    (hK : ∀ q, PathWf q → q ≠ T → q ≠ T ++ [.idx ((D1.count T).getD 0)] → KP m3 q = KP m1 q) (hKT : KP m3 T = some ⟨none, .count ((D1.count T).getD 0 + 1)⟩)
    (hKE : KP m3 (T ++ [.idx ((D1.count T).getD 0)]) = some ⟨none, .keys []⟩) (ho : Only m3)
    (hst1 : st'.keychain = []) (hst2 : st'.errors = st.errors) (hst3 : st'.map = m3) (hst4 : st'.heap = st.heap)
    (hstack : ∃ cts cis A b, (D.step e).Open cts cis A b ∧ Tops st' cts cis A b (D.step e).here ∧ (D.step e).opened = cts.map (·.table.names)) : (D.step e).SimE E st' := by
  obtain ⟨k1, k2, k3, k4⟩ := Good.elem (D' := D.step e) (K' := KP m3) g hs hT hw hd nv nt h1 h2 h3 h4 h5 hK hKT hKE
  exact ⟨hst1, hst2.trans h.errs, by rw [hst3]; exact ho, by rw [hst3, hst4]; exact k1, k2, by rw [h6]; exact k3, by rw [h6]; exact k4, hstack⟩

theorem arrPop {D : Sections} {st : PState} {cts : List TableType} {cis : List Nat} {A : List Str} {b here : List Key} (hO : D.Open cts cis A b) (hT : Tops st cts cis A b here) :
    (if isTopStd st.lastArrayTables then st.lastArrayTables.dropLast else st.lastArrayTables) = cts ∧
    (if isTopStd st.lastArrayTables then st.lastArrayTablesIndex.dropLast else st.lastArrayTablesIndex) = cis := by
  rcases hT.top with ⟨t0, ks0, _, _, _, h1, h2, _⟩ | ⟨h1, h2, _⟩
  · rw [h1, h2]
    have : isTopStd (cts ++ [.std t0]) = true := by simp [isTopStd]
    simp [this]
  · rw [h1, h2]
    have : isTopStd cts = false := by
      unfold isTopStd
      cases e : cts.getLast? with
      | none => rfl
      | some u =>
        obtain ⟨u', rfl, _⟩ := hO.last u e
        rfl
    simp [this]

theorem arrayTableAct_eq {st : PState} {t : Table} (hk : st.keychain = []) {ts : List TableType} {is : List Nat} (h1 : (if isTopStd st.lastArrayTables then st.lastArrayTables.dropLast else st.lastArrayTables) = ts)
    (h2 : (if isTopStd st.lastArrayTables then st.lastArrayTablesIndex.dropLast else st.lastArrayTablesIndex) = is) {m1 : KMap} {ts1 : List TableType} {is1 : List Nat}
    (h3 : arrPlace st.map st.heap (.arr t) ts is = .ok (m1, ts1, is1)) {full parent : Str} (h4 : getArrayTableKey m1 st.heap ts1 is1 = .ok (true, full, parent)) (w1 w2 : Str) (c : Option Str) :
    (ET.table w1 (.arr t) w2 c).eff st = .ok { st with keychain := [], lastArrayTables := ts1, lastArrayTablesIndex := is1, arrayError := false, map := (if m1.contains parent then m1 else m1.insert parent ⟨none, .count 1⟩).insert full ⟨none, .keys []⟩, lastTable := some (.arr t) } := by
  rw [ET.eff, TableType.eff]
  unfold arrayTableAct
  have hlen : (st.pushKs (t.keys.map (·.key))).keychain.length = t.keys.length := by simp [PState.pushKs, hk]
  simp only [hlen, Nat.lt_irrefl, if_false, Nat.sub_self, List.take_zero]
  have e1 : (st.pushKs (t.keys.map (·.key))).lastArrayTables = st.lastArrayTables := rfl
  have e2 : (st.pushKs (t.keys.map (·.key))).lastArrayTablesIndex = st.lastArrayTablesIndex := rfl
  have e3 : (st.pushKs (t.keys.map (·.key))).map = st.map := rfl
  have e4 : (st.pushKs (t.keys.map (·.key))).heap = st.heap := rfl
  rw [e1, e2, e3, e4, h1, h2, h3]
  simp only [Out.bind_eq, Out.bind, h4, Bool.not_true, Bool.false_eq_true, if_false]
  rfl

/-- The array is open. -/
theorem arrPlace_open {D : Sections} {m : KMap} {h : Heap} (g : D.Good (KP m) h) {t : Table} (hw : (TableType.arr t).wf) {cts : List TableType} {cis : List Nat} {A : List Str} {b : List Key}
    (hO : D.Open cts cis A b) (hop : D.opened = cts.map (·.table.names)) (hap : D.apart t.names) (hin : t.names ∈ D.opened) :
    ∃ cts' cis' b' rest, D.Open cts' cis' t.names b' ∧ cts = cts' ++ rest ∧ (∀ u ∈ rest, ¬ u.table.names <+: t.names) ∧ arrPlace m h (.arr t) cts cis = arrNext m cts' cis' := by
  have hN := wf_names hw
  have hwr : ∀ u ∈ cts, NamesWf u.table.names := fun u hu => (hO.counted g u hu).2.2.2
  have hmem : ∀ u ∈ cts, u.table.names ∈ D.opened := fun u hu => by rw [hop]; exact List.mem_map_of_mem hu
  have hpre : t.names <+: A := by
    rw [hop, List.mem_map] at hin
    obtain ⟨u, hu, e⟩ := hin
    rw [← e]
    exact (hO.counted g u hu).2.1
  have hts : cts ≠ [] := by
    rintro rfl
    rw [hop] at hin
    simp at hin
  have hu := List.getLast?_eq_some_getLast hts
  obtain ⟨u, hu1, hu2, _⟩ := hO.last _ hu
  rw [hu1] at hu
  have hum : TableType.arr u ∈ cts := List.mem_of_getLast? hu
  unfold arrPlace
  rw [hu]
  dsimp only
  by_cases he : u.names = t.names
  · rw [if_pos (keyStr_congr (t := .arr t) (u := .arr u) he.symm)]
    refine ⟨cts, cis, b, [], ?_, by simp, by simp, rfl⟩
    rw [← he, hu2]; exact hO
  · rw [if_neg (fun h => he (keyStr_inj (t := .arr t) (u := .arr u) hN.2 (hwr _ hum) h).symm)]
    have hns : (TableType.arr t).isSubtableOf (.arr u) = false := by
      cases e : (TableType.arr t).isSubtableOf (.arr u) with
      | false => rfl
      | true =>
        have h1 : u.names <+: t.names := (isSub_iff (t := .arr t) (u := .arr u) hN.2 (hwr _ hum) (hmem _ hum) hap).mp e
        rw [← hu2] at hpre
        exact absurd (h1.eq_of_length (Nat.le_antisymm h1.length_le hpre.length_le)) he
    rw [hns]
    simp only [Bool.false_eq_true, if_false]
    obtain ⟨cts', cis', A', b', rest, p1, hO', p3, p4, p5, _, p7⟩ := hO.pop (fun top => decide ((TableType.arr t).keyStr = top.keyStr))
    rw [p1]
    have hnil : cts' ≠ [] := by
      rintro rfl
      rw [hop, List.mem_map] at hin
      obtain ⟨v, hv, e⟩ := hin
      have := p4 v (by rw [p3] at hv; simpa using hv)
      simp only [decide_eq_false_iff_not] at this
      exact this (keyStr_congr e.symm)
    rw [if_pos hnil]
    have hv := List.getLast?_eq_some_getLast hnil
    obtain ⟨v, hv1, hv2, _⟩ := hO'.last _ hv
    have hA' : A' = t.names := by
      have h1 := p5 _ hv
      simp only [decide_eq_true_eq] at h1
      have h2 : cts'.getLast hnil ∈ cts := by rw [p3]; simp
      have := keyStr_inj hN.2 (hwr _ h2) h1
      rw [hv1] at this
      rw [← hv2]; exact this.symm
    subst hA'
    refine ⟨cts', cis', b', rest, hO', p3, fun w hwm hpw => ?_, rfl⟩
    exact (p7 w hwm).2 (hpw.eq_of_length (Nat.le_antisymm hpw.length_le (p7 w hwm).1.length_le))

end Sections
end Tomllib

namespace Tomllib
namespace Sections

theorem filter_ne {l : List (List Str)} {N : List Str} (p : List Str → Bool) (h : N ∉ l.filter p) : (l.filter fun P => P ≠ N && p P) = l.filter p := by
  apply List.filter_congr
  intro P hP
  by_cases e : P = N
  · subst e
    have : p P = false := by
      cases h' : p P with
      | false => rfl
      | true => exact absurd (List.mem_filter.mpr ⟨hP, h'⟩) h
    simp [this]
  · simp [e]

/-- One more element of an open array. -/
theorem SimE.arrMore {D : Sections} {st : PState} {E : List ParseError} (h : D.SimE E st) {w1 w2 : Str} {t : Table} {c : Option Str} (hw : (TableType.arr t).wf) (hap : D.apart t.names) (hin : t.names ∈ D.opened) :
    ∃ st', (ET.table w1 (.arr t) w2 c).eff st = .ok st' ∧ (D.step (.table w1 (.arr t) w2 c)).SimE E st' := by
  obtain ⟨cts0, cis0, A0, b0, hO0, hT0, hop⟩ := h.stack
  have hN := wf_names hw
  have g := h.good
  obtain ⟨cts, cis, b, rest, hO, e1, e2, e3⟩ := arrPlace_open g hw hO0 hop hap hin
  obtain ⟨a1, a2⟩ := arrPop hO0 hT0
  have hOp := hO.path g
  have hTN := hOp.2.1 hN.1
  generalize hNe : t.names = N at hO hOp hTN
  cases hO with
  | nil => exact absurd hNe hN.1
  | @snoc ts is A b1 u ks i hO1 hwu hun hne hnm hcnt =>
    generalize hT : b1 ++ Tomllib.names ks = T at *
    have hb := (Open.snoc u ks i hO1 hwu hun hne hnm (by rw [hT]; exact hcnt)).wf.2.1
    rw [hT] at hb
    have hwT : PathWf T := hb.left
    have hTne : T ≠ [] := by rw [← hT]; simp [names_ne hne]
    rw [List.dropLast_concat] at hTN
    have hNu : t.names = u.names := hNe
    rw [← hNu] at hTN hOp
    have hsl := g.slot T hwT
    -- the map
    have hKT : KP st.map T = some ⟨none, .count (i + 1)⟩ := hsl.arr _ hcnt
    have hch1 : TChain (KP st.map) ts is A b1 := hO1.chain g
    have hpar : getKeyParent (ts ++ [.arr u]) (is ++ [i]) = .ok (keyOf [] T) := by rw [hch1.parentNew hwu hun hne, hT]
    have hnext : arrNext st.map (ts ++ [.arr u]) (is ++ [i]) = .ok (st.map.insert (parP T) ⟨none, .count (i + 2)⟩, ts ++ [.arr u], is ++ [i + 1]) := by
      rw [arrNext, incrementArrayTableIndex, hpar]
      simp only [Out.bind_eq, Out.bind, KP_ne hTne, hKT, List.getLast?_concat, List.dropLast_concat, parP_ne hTne]
    rw [hnext] at e3
    generalize hm1 : st.map.insert (parP T) ⟨none, .count (i + 2)⟩ = m1 at *
    have hK1 : ∀ q, PathWf q → KP m1 q = if T = q then some ⟨none, .count (i + 2)⟩ else KP st.map q := fun q hq => by rw [← hm1]; exact KP_insert hwT hq _
    have ho1 : Only m1 := by rw [← hm1]; exact h.only.insert hwT _
    have hstr : ∀ x k y, x ++ k :: y = ks → b1 ++ Tomllib.names x ≠ T := by
      intro x k y e he
      rw [← hT, ← e] at he
      have := congrArg List.length he
      simp [Tomllib.names] at this
    have hchain : TChain (KP m1) (ts ++ [.arr u]) (is ++ [i + 1]) u.names (b1 ++ Tomllib.names ks ++ [.idx (i + 1)]) := by
      refine TChain.snoc u ks (i + 1) (hch1.congr fun r hr hn => ?_) hwu hun hne (fun x k y e => ?_) (by rw [hT, hK1 T hwT, if_pos rfl])
      · rw [hK1 r (PathWf.pre hch1.wf.2.1 hr), if_neg]
        rintro rfl
        have h1 := hr.length_le
        rw [← hT] at h1
        simp [Tomllib.names] at h1
        have := List.length_pos_iff.mpr hne
        omega
      · have hwx : PathWf (b1 ++ Tomllib.names x) := PathWf.pre hwT ⟨Tomllib.names (k :: y), by rw [← hT, ← e, names_append]; simp⟩
        rw [hK1 _ hwx, if_neg (Ne.symm (hstr x k y e))]
        exact g.hasName (hnm x k y e)
    have htop := hchain.top st.heap (by simp)
    rw [hT, List.dropLast_concat] at htop
    have hEne : T ++ [Key.idx (i + 1)] ≠ [] := by simp
    have hEw : PathWf (T ++ [.idx (i + 1)]) := hwT.append hTne (by simp)
    have hcont : m1.contains (keyOf [] T) = true := by
      rw [SMap.contains, KP_ne hTne, hK1 T hwT, if_pos rfl]; rfl
    have hact := arrayTableAct_eq h.kc a1 a2 e3 htop w1 w2 c
    rw [hcont, if_pos rfl, ← parP_ne hEne] at hact
    refine ⟨_, hact, ?_⟩
    have hK3 : ∀ q, PathWf q → KP (m1.insert (parP (T ++ [.idx (i + 1)])) ⟨none, .keys []⟩) q = if T ++ [.idx (i + 1)] = q then some ⟨none, .keys []⟩ else KP m1 q := fun q hq => KP_insert hEw hq _
    have hsame : Same D { D with names := D.names ++ D.way [] t.names } := by
      refine ⟨rfl, rfl, rfl, rfl, fun p => ?_⟩
      have := namesOf_dup (D := D) (D' := D) (d := D.way [] t.names) (w := []) hOp.2.2 p
      rw [List.append_nil, List.append_nil] at this
      exact this
    have hcD : Sections.count { D with names := D.names ++ D.way [] t.names } T = some (i + 1) := hcnt
    have hcg : (Sections.count { D with names := D.names ++ D.way [] t.names } T).getD 0 = i + 1 := by rw [hcD]; rfl
    have hcg' : (D.count T).getD 0 = i + 1 := by rw [hcnt]; rfl
    have hnt : ¬ D.isTable T := fun ht => by
      have := hsl.arr_tab ht
      rw [hcnt] at this
      simp at this
    have hhere : (D.step (.table w1 (.arr t) w2 c)).here = T ++ [.idx (i + 1)] := by
      show D.target t.names ++ [.idx ((D.count (D.target t.names)).getD 0)] = _
      rw [hTN, hcg']
    have harrs : (D.step (.table w1 (.arr t) w2 c)).arrs = (T, i + 1 + 1) :: D.arrs := by
      show (D.target t.names, (D.count (D.target t.names)).getD 0 + 1) :: D.arrs = _
      rw [hTN, hcg']
    have hTE : T ≠ T ++ [Key.idx (i + 1)] := by simp
    refine SimE.elem (D1 := { D with names := D.names ++ D.way [] t.names }) (m1 := st.map) h (hsame.good g) hTne hwT (hsame.solid (g.closed T (.inr (.inr (.inl ⟨_, count_mem hcnt, rfl⟩)))))
      (hsame.down (h.down T)) (hsl.val_arr (by rw [hcnt]; simp)) (fun ht => hnt ((hsame.isTable T).mp ht)) rfl rfl rfl (by rw [hcg]; exact harrs) rfl (by rw [hcg]; exact hhere)
      (fun q hq hq1 hq2 => ?_) ?_ ?_ (ho1.insert hEw _) rfl rfl rfl rfl ?_
    · rw [hcg] at hq2
      rw [hK3 q hq, if_neg (Ne.symm hq2), hK1 q hq, if_neg (Ne.symm hq1)]
    · rw [hcg, hK3 T hwT, if_neg (Ne.symm hTE), hK1 T hwT, if_pos rfl]
    · rw [hcg, hK3 _ hEw, if_pos rfl]
    · have hO2 : (D.step (.table w1 (.arr t) w2 c)).Open ts is A b1 := hO1.mono (fun e he => by simp [step, he]) fun r hr hn => by
        rw [count_cons harrs, if_neg]
        rintro rfl
        have h1 := hr.length_le
        rw [← hT] at h1
        simp [Tomllib.names] at h1
        have := List.length_pos_iff.mpr hne
        omega
      refine ⟨ts ++ [.arr u], is ++ [i + 1], u.names, T ++ [.idx (i + 1)], ?_, ⟨.inr ⟨rfl, rfl, hhere, fun h => absurd h hEne, fun _ => ⟨t, rfl⟩⟩, rfl⟩, ?_⟩
      · rw [← hT]
        exact .snoc u ks (i + 1) hO2 hwu hun hne (fun x k y e => by
          have := hnm x k y e
          simp [step, this]) (by rw [hT, count_cons harrs, if_pos rfl])
      · show (D.opened.filter fun P => P ≠ t.names && P.isPrefixOf t.names) ++ [t.names] = _
        rw [hop, e1, List.map_append, List.map_append, List.filter_append, List.filter_append]
        have f1 : List.filter (fun P => decide (P ≠ t.names) && P.isPrefixOf t.names) (ts.map (·.table.names)) = ts.map (·.table.names) := by
          rw [List.filter_eq_self]
          intro P hP
          simp only [List.mem_map] at hP
          obtain ⟨w, hw', rfl⟩ := hP
          have hpA := (hO1.counted g w hw').2.1
          have hlt : w.table.names ≠ t.names := by
            intro e
            have := hpA.length_le
            rw [e, hNu, hun, List.length_append] at this
            have := List.length_pos_iff.mpr hne
            omega
          have : w.table.names <+: t.names := by rw [hNu, hun]; exact hpA.trans (List.prefix_append _ _)
          simp [hlt, this]
        have f2 : List.filter (fun P => decide (P ≠ t.names) && P.isPrefixOf t.names) ([TableType.arr u].map (·.table.names)) = [] := by
          simp [TableType.table, hNu]
        have f3 : List.filter (fun P => decide (P ≠ t.names) && P.isPrefixOf t.names) (rest.map (·.table.names)) = [] := by
          rw [List.filter_eq_nil_iff]
          intro P hP
          simp only [List.mem_map] at hP
          obtain ⟨w, hw', rfl⟩ := hP
          have := e2 w hw'
          simp [this]
        rw [f1, f2, f3]
        simp [TableType.table, hNu]

end Sections
end Tomllib

namespace Tomllib
namespace Sections

/-- The array is new. -/
theorem arrPlace_which {D : Sections} {m : KMap} {h : Heap} (g : D.Good (KP m) h) {t : Table} (hw : (TableType.arr t).wf) {cts : List TableType} {cis : List Nat} {A : List Str} {b : List Key}
    (hO : D.Open cts cis A b) (hop : D.opened = cts.map (·.table.names)) (hap : D.apart t.names) (hin : t.names ∉ D.opened)
    (hor : (∀ P ∈ D.opened, ¬ P.isPrefixOf t.names) ∨ (D.opened.getLastD []).isPrefixOf t.names) :
    ∃ cts' cis' A' b', D.Open cts' cis' A' b' ∧ A' <+: t.names ∧ A' ≠ t.names ∧ (D.opened.filter fun P => P.isPrefixOf t.names) = cts'.map (·.table.names) ∧
      arrPlace m h (.arr t) cts cis = if (D.opened.getLastD []).isPrefixOf t.names then arrPush m h (.arr t) cts' cis' else arrAgain m h (.arr t) cts' cis' := by
  have hN := wf_names hw
  have hwr : ∀ u ∈ cts, NamesWf u.table.names := fun u hu => (hO.counted g u hu).2.2.2
  have hmem : ∀ u ∈ cts, u.table.names ∈ D.opened := fun u hu => by rw [hop]; exact List.mem_map_of_mem hu
  by_cases hts : cts = []
  · subst hts
    refine ⟨[], cis, A, b, hO, ?_, ?_, ?_, by rw [hop]; rfl⟩
    · rw [hO.wf.2.2.2.mpr rfl]; exact List.nil_prefix
    · rw [hO.wf.2.2.2.mpr rfl]; exact Ne.symm hN.1
    · rw [hop]; rfl
  have hu := List.getLast?_eq_some_getLast hts
  obtain ⟨u, hu1, hu2, _⟩ := hO.last _ hu
  rw [hu1] at hu
  have hum : TableType.arr u ∈ cts := List.mem_of_getLast? hu
  have hlast : D.opened.getLastD [] = A := by
    rw [hop, List.getLastD_eq_getLast?, List.getLast?_map, hu]
    exact hu2
  have hkne : (TableType.arr t).keyStr ≠ (TableType.arr u).keyStr := fun h =>
    hin (by rw [show t.names = u.names from keyStr_inj (t := .arr t) (u := .arr u) hN.2 (hwr _ hum) h]; exact hmem _ hum)
  have hsub := isSub_iff (t := .arr t) (u := .arr u) hN.2 (hwr _ hum) (hmem _ hum) hap
  unfold arrPlace
  rw [hu]
  dsimp only
  rw [if_neg hkne]
  by_cases hp : A <+: t.names
  · rw [if_pos (hsub.mpr (by rw [← hu2] at hp; exact hp))]
    refine ⟨cts, cis, A, b, hO, hp, ?_, ?_, by rw [hlast, if_pos (List.isPrefixOf_iff_prefix.mpr hp)]⟩
    · rintro rfl
      exact hin (by rw [← hu2]; exact hmem _ hum)
    · rw [hop, List.filter_eq_self]
      intro P hP
      simp only [List.mem_map] at hP
      obtain ⟨w, hw', rfl⟩ := hP
      exact List.isPrefixOf_iff_prefix.mpr ((hO.counted g w hw').2.1.trans hp)
  · have hno : ∀ P ∈ D.opened, ¬ P <+: t.names := by
      rcases hor with h | h
      · intro P hP hpre
        exact h P hP (List.isPrefixOf_iff_prefix.mpr hpre)
      · rw [hlast] at h
        exact absurd (List.isPrefixOf_iff_prefix.mp h) hp
    rw [if_neg (fun h => hp (by rw [← hu2]; exact hsub.mp h))]
    obtain ⟨cts', cis', A', b', rest, p1, hO', p3, p4, p5, _⟩ := hO.pop (fun top => decide ((TableType.arr t).keyStr = top.keyStr))
    rw [p1]
    have hnil : cts' = [] := by
      by_cases h0 : cts' = []
      · exact h0
      · have hv := List.getLast?_eq_some_getLast h0
        have h1 := p5 _ hv
        simp only [decide_eq_true_eq] at h1
        have h2 : cts'.getLast h0 ∈ cts := by rw [p3]; simp
        have := keyStr_inj hN.2 (hwr _ h2) h1
        refine absurd ?_ hin
        rw [show t.names = _ from this]
        exact hmem _ h2
    subst hnil
    rw [if_neg (by simp)]
    refine ⟨[], cis', A', b', hO', ?_, ?_, ?_, by rw [hlast, if_neg (fun h => hp (List.isPrefixOf_iff_prefix.mp h))]⟩
    · rw [hO'.wf.2.2.2.mpr rfl]; exact List.nil_prefix
    · rw [hO'.wf.2.2.2.mpr rfl]; exact Ne.symm hN.1
    · rw [List.map_nil, List.filter_eq_nil_iff]
      intro P hP hpre
      exact hno P hP (List.isPrefixOf_iff_prefix.mp hpre)

/-- The array is new. -/
theorem arrPlace_new {D : Sections} {m : KMap} {h : Heap} (g : D.Good (KP m) h) {t : Table} (hw : (TableType.arr t).wf) {cts : List TableType} {cis : List Nat} {A : List Str} {b : List Key}
    (hO : D.Open cts cis A b) (hop : D.opened = cts.map (·.table.names)) (hap : D.apart t.names) (hin : t.names ∉ D.opened)
    (hor : (∀ P ∈ D.opened, ¬ P.isPrefixOf t.names) ∨ (D.opened.getLastD []).isPrefixOf t.names) :
    ∃ cts' cis' A' b', D.Open cts' cis' A' b' ∧ A' <+: t.names ∧ A' ≠ t.names ∧ (D.opened.filter fun P => P.isPrefixOf t.names) = cts'.map (·.table.names) ∧
      (arrPlace m h (.arr t) cts cis = arrPush m h (.arr t) cts' cis' ∨ arrPlace m h (.arr t) cts cis = arrAgain m h (.arr t) cts' cis') := by
  obtain ⟨cts', cis', A', b', h1, h2, h3, h4, h5⟩ := arrPlace_which (m := m) (h := h) g hw hO hop hap hin hor
  refine ⟨cts', cis', A', b', h1, h2, h3, h4, ?_⟩
  rw [h5]
  split
  · exact .inl rfl
  · exact .inr rfl

theorem isTable_way {D : Sections} {T b : List Key} {ks : List Str} (hT : T = b ++ Tomllib.names ks) (ht : ¬ D.isTable T) {d : List (List Key × Str)} (hd : ∀ e ∈ d, e ∈ D.names) :
    ¬ isTable { D with names := D.names ++ (d ++ wayN b ks) } T := by
  rintro (h | h | h | ⟨e, he, h⟩)
  · exact ht (.inl h)
  · exact ht (.inr (.inl h))
  · exact ht (.inr (.inr (.inl h)))
  · simp only [List.mem_append] at he
    rcases he with he | he | he
    · exact ht (.inr (.inr (.inr ⟨e, he, h⟩)))
    · exact ht (.inr (.inr (.inr ⟨e, hd e he, h⟩)))
    · obtain ⟨x, y, e1, e2⟩ := (mem_wayN ks b e.1 e.2).mp he
      rw [h, hT, ← e1] at e2
      have := congrArg List.length e2
      simp [Tomllib.names] at this

/-- The first element of a new array. -/
theorem SimE.arrNew {D : Sections} {st : PState} {E : List ParseError} (h : D.SimE E st) {w1 w2 : Str} {t : Table} {c : Option Str} (hw : (TableType.arr t).wf)
    (f1 : ∀ a ∈ onWay t.names, (D.valueAt (D.target a)).isNone ∧ (a ≠ t.names → D.count (D.target a) ≠ none → a ∈ D.opened))
    (hap : D.apart t.names) (hcl : D.clear t.names) (hin : t.names ∉ D.opened) (ht : ¬ D.isTable (D.target t.names)) (hct : D.count (D.target t.names) = none)
    (hor : (∀ P ∈ D.opened, ¬ P.isPrefixOf t.names) ∨ (D.opened.getLastD []).isPrefixOf t.names) :
    ∃ st', (ET.table w1 (.arr t) w2 c).eff st = .ok st' ∧ (D.step (.table w1 (.arr t) w2 c)).SimE E st' := by
  obtain ⟨cts0, cis0, A0, b0, hO0, hT0, hop⟩ := h.stack
  have hN := wf_names hw
  have g := h.good
  obtain ⟨cts, cis, A, b, hO, ⟨ks, hks⟩, hAN, hfil, hpl⟩ := arrPlace_new (m := st.map) (h := st.heap) g hw hO0 hop hap hin hor
  obtain ⟨a1, a2⟩ := arrPop hO0 hT0
  have hks' : t.names = A ++ ks := hks.symm
  have hne : ks ≠ [] := by
    rintro rfl
    exact hAN (by rw [hks', List.append_nil])
  have hon : ∀ x y, x ≠ [] → y ≠ [] → x ++ y = ks → D.count (D.target (A ++ x)) = none := by
    intro x y hx hy e
    have hpre : A ++ x <+: t.names := ⟨y, by rw [List.append_assoc, e, hks']⟩
    have hm := f1 (A ++ x) (mem_onWay.mpr ⟨by simp [hx], hpre⟩)
    cases hc : D.count (D.target (A ++ x)) with
    | none => rfl
    | some n =>
      have hopn := hm.2 (by rw [hks', ← e]; simp [hy]) (by rw [hc]; simp)
      have : A ++ x ∈ D.opened.filter fun P => P.isPrefixOf t.names := List.mem_filter.mpr ⟨hopn, List.isPrefixOf_iff_prefix.mpr hpre⟩
      rw [hfil, List.mem_map] at this
      obtain ⟨u, hu, e'⟩ := this
      have := (hO.counted g u hu).2.1.length_le
      rw [e'] at this
      simp at this
      have := List.length_pos_iff.mpr hx
      omega
  have hp := hO.path g
  have htf := fun x y => target_free hp.1 hon x.length x y rfl
  have hval : ∀ x y, x ≠ [] → x ++ y = ks → D.valueAt (b ++ Tomllib.names x) = none := by
    intro x y hx e
    rw [← htf x y hx e]
    have := (f1 (A ++ x) (mem_onWay.mpr ⟨by simp [hx], y, by rw [List.append_assoc, e, hks']⟩)).1
    simpa using this
  have hcnt : ∀ x y, x ≠ [] → y ≠ [] → x ++ y = ks → D.count (b ++ Tomllib.names x) = none := by
    intro x y hx hy e
    rw [← htf x y hx e]
    exact hon x y hx hy e
  have hTt : D.target t.names = b ++ Tomllib.names ks := by rw [hks']; exact htf ks [] hne (by simp)
  have hwk : PathWf (b ++ Tomllib.names ks) := hO.wf.2.1.append' (NamesWf.path (by
    have := hN.2
    rw [show (TableType.arr t).table.names = A ++ ks from hks'] at this
    exact this.right))
  obtain ⟨m1, i1, i2, i3, i4, i5⟩ := enter_header g h.only h.down hO hw hks' hne (fun x y hx hy e => ⟨hval x y hx e, hcnt x y hx hy e⟩) hcl
  have hway : D.way [] t.names = D.way [] A ++ wayN b ks := by rw [hks', way_append, hp.1, way_names D ks b hcnt]
  have i2' : Good { D with names := D.names ++ D.way [] t.names } (KP m1) st.heap := i2
  rw [hTt] at ht hct
  have hnv := hval ks [] hne (by simp)
  have hTne : b ++ Tomllib.names ks ≠ [] := by simp [names_ne hne]
  have hnt1 : ¬ isTable { D with names := D.names ++ D.way [] t.names } (b ++ Tomllib.names ks) := by
    rw [hway]
    exact isTable_way rfl ht hp.2.2
  have hK1T : KP m1 (b ++ Tomllib.names ks) = none := (i2'.slot _ hwk).none hnv hct hnt1
  have hnm : ∀ x k y, x ++ k :: y = ks → (b ++ Tomllib.names x, k) ∈ D.names ++ D.way [] t.names := by
    intro x k y e
    rw [hway]
    have := (mem_wayN ks b _ k).mpr ⟨x, y, e, rfl⟩
    simp [this]
  have hO1 : Open { D with names := D.names ++ D.way [] t.names } cts cis A b := hO.mono (fun e he => by simp [he]) (fun _ _ _ => rfl)
  have hch1 := hO1.chain i2'
  have hplace : arrPlace st.map st.heap (.arr t) cts0 cis0 = .ok (m1, cts ++ [.arr t], cis ++ [0]) := by
    have hpush : arrPush st.map st.heap (.arr t) cts cis = .ok (m1, cts ++ [.arr t], cis ++ [0]) := by
      rw [arrPush, i1]; rfl
    rcases hpl with e | e
    · rw [e, hpush]
    · rw [e, arrAgain, hpush]
      have hpar := hch1.parentNew hw hks' hne 0
      simp only [Out.bind_eq, Out.bind, hpar]
      have : m1.contains (keyOf [] (b ++ Tomllib.names ks)) = false := by
        rw [SMap.contains, KP_ne hTne, hK1T]; rfl
      rw [this]
      rfl
  have htop := hch1.topNew st.heap hw hks' hne (fun x k y e => i2'.hasName (hnm x k y e)) hK1T
  generalize hT : b ++ Tomllib.names ks = T at *
  have hEne : T ++ [Key.idx 0] ≠ [] := by simp
  have hEw : PathWf (T ++ [.idx 0]) := hwk.append hTne (by simp)
  have hcont : m1.contains (keyOf [] T) = false := by
    rw [SMap.contains, KP_ne hTne, hK1T]; rfl
  have hact := arrayTableAct_eq h.kc a1 a2 hplace htop w1 w2 c
  rw [hcont, if_neg (by simp), ← parP_ne hEne, ← parP_ne hTne] at hact
  refine ⟨_, hact, ?_⟩
  have hK2 : ∀ q, PathWf q → KP (m1.insert (parP T) ⟨none, .count 1⟩) q = if T = q then some ⟨none, .count 1⟩ else KP m1 q := fun q hq => KP_insert hwk hq _
  have ho2 : Only (m1.insert (parP T) ⟨none, .count 1⟩) := i3.insert hwk _
  generalize m1.insert (parP T) ⟨none, .count 1⟩ = m2 at *
  have hK3 : ∀ q, PathWf q → KP (m2.insert (parP (T ++ [.idx 0])) ⟨none, .keys []⟩) q = if T ++ [.idx 0] = q then some ⟨none, .keys []⟩ else KP m2 q := fun q hq => KP_insert hEw hq _
  have hcg : (Sections.count { D with names := D.names ++ D.way [] t.names } T).getD 0 = 0 := by
    have : Sections.count { D with names := D.names ++ D.way [] t.names } T = none := hct
    rw [this]; rfl
  have hcg' : (D.count T).getD 0 = 0 := by rw [hct]; rfl
  have hhere : (D.step (.table w1 (.arr t) w2 c)).here = T ++ [.idx 0] := by
    show D.target t.names ++ [.idx ((D.count (D.target t.names)).getD 0)] = _
    rw [hTt, hcg']
  have harrs : (D.step (.table w1 (.arr t) w2 c)).arrs = (T, 0 + 1) :: D.arrs := by
    show (D.target t.names, (D.count (D.target t.names)).getD 0 + 1) :: D.arrs = _
    rw [hTt, hcg']
  have hTE : T ≠ T ++ [Key.idx 0] := by simp
  refine SimE.elem (D1 := { D with names := D.names ++ D.way [] t.names }) (m1 := m1) h i2' hTne hwk i5 i4 hnv hnt1 rfl rfl rfl (by rw [hcg]; exact harrs) rfl (by rw [hcg]; exact hhere)
    (fun q hq hq1 hq2 => ?_) ?_ ?_ (ho2.insert hEw _) rfl rfl rfl rfl ?_
  · rw [hcg] at hq2
    rw [hK3 q hq, if_neg (Ne.symm hq2), hK2 q hq, if_neg (Ne.symm hq1)]
  · rw [hcg, hK3 T hwk, if_neg (Ne.symm hTE), hK2 T hwk, if_pos rfl]
  · rw [hcg, hK3 _ hEw, if_pos rfl]
  · have hO2 : (D.step (.table w1 (.arr t) w2 c)).Open cts cis A b := hO.mono (fun e he => by simp [step, he]) fun r hr hn => by
      rw [count_cons harrs, if_neg]
      rintro rfl
      have h1 := hr.length_le
      rw [← hT] at h1
      simp [Tomllib.names] at h1
      have := List.length_pos_iff.mpr hne
      omega
    refine ⟨cts ++ [.arr t], cis ++ [0], t.names, T ++ [.idx 0], ?_, ⟨.inr ⟨rfl, rfl, hhere, fun h => absurd h hEne, fun _ => ⟨t, rfl⟩⟩, rfl⟩, ?_⟩
    · rw [← hT]
      refine .snoc t ks 0 hO2 hw hks' hne (fun x k y e => ?_) (by rw [hT, count_cons harrs, if_pos rfl])
      show _ ∈ D.names ++ D.way [] t.names
      exact hnm x k y e
    · show (D.opened.filter fun P => P ≠ t.names && P.isPrefixOf t.names) ++ [t.names] = _
      rw [filter_ne, hfil]
      · simp [TableType.table]
      · intro hm
        exact hin (List.mem_filter.mp hm).1

/-- A header of an array of tables. -/
theorem SimE.arr {D : Sections} {st : PState} {E : List ParseError} (h : D.SimE E st) {w1 w2 : Str} {t : Table} {c : Option Str} (hw : (TableType.arr t).wf) (hf : D.fits (.table w1 (.arr t) w2 c)) :
    ∃ st', (ET.table w1 (.arr t) w2 c).eff st = .ok st' ∧ (D.step (.table w1 (.arr t) w2 c)).SimE E st' := by
  obtain ⟨f1, f2, f3, f4⟩ := hf
  by_cases hin : t.names ∈ D.opened
  · exact h.arrMore hw f3 hin
  · obtain ⟨h1, h2, h3⟩ := f2.resolve_left hin
    exact h.arrNew hw f1 f3 f4 hin h1 h2 h3

/-- A line. -/
theorem SimE.line {D : Sections} {st : PState} {E : List ParseError} (h : D.SimE E st) {e : ET} (hw : e.wf) (hf : D.fits e) : ∃ st', e.eff st = .ok st' ∧ (D.step e).SimE E st' := by
  cases e with
  | blank w => exact ⟨st, rfl, h⟩
  | comment w c => exact ⟨st, rfl, h⟩
  | kv w1 k s v w2 c =>
    rw [ET.wf] at hw
    obtain ⟨st', h1, h2, _⟩ := h.kv (w1 := w1) (s := s) (w2 := w2) (c := c) hw.2.1 hw.2.2.2.1 hf.1 (v.sound_distinct hf.2)
    rw [v.report_sound _ _ _ hf.2] at h2
    exact ⟨st', h1, h2⟩
  | table w1 t w2 c =>
    rw [ET.wf] at hw
    cases t with
    | std t => exact h.std hw.2.1 hf
    | arr t => exact h.arr hw.2.1 hf

theorem Sim.all : ∀ (ls : List (Str × ET)) {D : Sections} {st : PState}, D.Sim st → (∀ l ∈ ls, l.2.wf) → D.Fits ls →
    ∃ st' es, linesEff ls st = .ok (st', es) ∧ (ls.foldl (fun D l => D.step l.2) D).Sim st'
  | [], D, st, h, _, _ => ⟨st, [], rfl, h⟩
  | (nl, e) :: ls, D, st, h, hw, hf => by
    obtain ⟨st1, e1, h1⟩ := (h.lines (nlCount nl)).line (hw (nl, e) (by simp)) hf.1
    obtain ⟨st2, es, e2, h2⟩ := Sim.all ls h1 (fun l hl => hw l (by simp [hl])) hf.2
    exact ⟨st2, ⟨nl, e.expr st.heap.length⟩ :: es, by rw [linesEff, e1, Out.bind, e2]; rfl, h2⟩

end Sections
end Tomllib
