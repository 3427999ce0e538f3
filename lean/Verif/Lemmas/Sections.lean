import Verif.Lemmas.Chain
/-!
# Documents with arrays of tables: the invariant
-/

namespace Tomllib
namespace Sections

theorem valueAt_congr {D D' : Sections} (h : D'.vals = D.vals) (q : List Key) : D'.valueAt q = D.valueAt q := by simp only [valueAt, h]
theorem count_congr {D D' : Sections} (h : D'.arrs = D.arrs) (q : List Key) : D'.count q = D.count q := by simp only [count, h]
theorem namesOf_congr {D D' : Sections} (h : D'.names = D.names) (q : List Key) : D'.namesOf q = D.namesOf q := by simp only [namesOf, h]

theorem valueAt_kv {D D' : Sections} {P : List Key} {v : VT} (h : D'.vals = D.vals ++ [(P, v)]) (q : List Key) :
    D'.valueAt q = (D.valueAt q).or (if P.isPrefixOf q then v.part (q.drop P.length) else none) := by
  simp only [valueAt, h, List.findSome?_append, List.findSome?_cons, List.findSome?_nil]
  split <;> simp_all

theorem valueAt_none {D : Sections} {q : List Key} : D.valueAt q = none ↔ ∀ e ∈ D.vals, e.1 <+: q → e.2.part (q.drop e.1.length) = none := by
  simp only [valueAt, List.findSome?_eq_none_iff]
  constructor
  · intro h e he hp
    have := h e he
    rwa [if_pos (by simpa using hp)] at this
  · intro h e he
    split
    next hp => exact h e he (by simpa using hp)
    · rfl

theorem valueAt_val {D : Sections} {e : List Key × VT} (he : e ∈ D.vals) : D.valueAt e.1 ≠ none := by
  intro h
  have := valueAt_none.mp h e he (List.prefix_refl _)
  simp [VT.part] at this

theorem namesOf_snoc {D D' : Sections} {b : List Key} {k : Str} (h : D'.names = D.names ++ [(b, k)]) (p : List Key) :
    D'.namesOf p = if b = p ∧ k ∉ D.namesOf p then D.namesOf p ++ [k] else D.namesOf p := by
  simp only [namesOf, h, List.foldl_append, List.foldl_cons, List.foldl_nil]
  congr

theorem mem_namesOf {D : Sections} {p : List Key} {k : Str} : k ∈ D.namesOf p ↔ (p, k) ∈ D.names := by
  obtain ⟨vals, heads, ns, arrs, here, opened, stray⟩ := D
  show k ∈ List.foldl _ _ ns ↔ _ ∈ ns
  have : ∀ (l : List Str), k ∈ ns.foldl (fun l e => if e.1 = p ∧ e.2 ∉ l then l ++ [e.2] else l) l ↔ k ∈ l ∨ (p, k) ∈ ns := by
    induction ns with
    | nil => simp
    | cons e ns ih =>
      intro l
      rw [List.foldl_cons, ih]
      obtain ⟨a, x⟩ := e
      dsimp only
      split
      next h => simp; grind
      next h => simp at h ⊢; grind
  simpa using this []

theorem namesOf_nil {D : Sections} {p : List Key} (h : ∀ k, (p, k) ∉ D.names) : D.namesOf p = [] := by
  cases e : D.namesOf p with
  | nil => rfl
  | cons k l => exact absurd (mem_namesOf.mp (by rw [e]; simp)) (h k)

theorem count_cons {D D' : Sections} {p0 : List Key} {n : Nat} (h : D'.arrs = (p0, n) :: D.arrs) (p : List Key) :
    D'.count p = if p0 = p then some n else D.count p := by
  simp only [count, h, List.findSome?_cons]
  split
  next h1 =>
    split at h1
    next h2 => rw [if_pos h2, ← h1]
    · simp at h1
  next h1 =>
    split at h1
    · simp at h1
    next h2 => rw [if_neg h2]

theorem count_mem {D : Sections} {p : List Key} {n : Nat} (h : D.count p = some n) : (p, n) ∈ D.arrs := by
  obtain ⟨e, h1, h2⟩ := List.exists_of_findSome?_eq_some h
  split at h2
  next h3 => simp at h2; rw [← h3, ← h2]; exact h1
  · simp at h2

theorem count_none {D : Sections} {p : List Key} : D.count p = none ↔ ∀ e ∈ D.arrs, e.1 ≠ p := by
  simp only [count, List.findSome?_eq_none_iff]
  constructor
  · intro h e he hp
    have := h e he
    rw [if_pos hp] at this
    simp at this
  · intro h e he
    rw [if_neg (h e he)]

/-- The paths in use. -/
def Spot (D : Sections) (r : List Key) : Prop := (∃ e ∈ D.vals, e.1 = r) ∨ r ∈ D.heads ∨ (∃ e ∈ D.arrs, e.1 = r) ∨ ∃ e ∈ D.names, e.1 = r

/-- What is above a path is known. -/
structure Solid (D : Sections) (r : List Key) : Prop where
  str : ∀ a k q, r = a ++ .str k :: q → (a, k) ∈ D.names
  idx : ∀ a i q, r = a ++ .idx i :: q → ∃ n, D.count a = some n ∧ i < n

/-- The children of a table, as the library lists them. -/
def Lists (D : Sections) (p : List Key) (l : List Str) : Prop :=
  if p = [] then (D.stray = [] → l = D.namesOf []) ∧ ∀ k, k ∈ l ↔ (k ∈ D.namesOf [] ∨ k ∈ D.stray) else l = D.namesOf p

/-- The entry of a table. -/
def TabEntry (D : Sections) (K : List Key → Option HashValue) (h : Heap) (p : List Key) : Prop :=
  ∃ v l, K p = some ⟨v, .keys l⟩ ∧ D.Lists p l ∧ (p ∈ D.heads → ∃ a, v = some a ∧ h[a]? = some .table) ∧ (p ∉ D.heads → v = none)

/-- The entry of a path. -/
structure Slot (D : Sections) (K : List Key → Option HashValue) (h : Heap) (p : List Key) : Prop where
  val : ∀ t, D.valueAt p = some t → ∃ a fp, K p = some ⟨some a, t.children⟩ ∧ t.Rep h a fp
  arr : ∀ n, D.count p = some n → K p = some ⟨none, .count n⟩
  tab : D.isTable p → D.TabEntry K h p
  none : D.valueAt p = none → D.count p = none → ¬ D.isTable p → K p = none

theorem Rep.notTable {h : Heap} {v : VT} {a : Addr} {fp : List Addr} (hr : v.Rep h a fp) : h[a]? ≠ some .table := by
  cases v with
  | leaf s =>
    rw [hr.1]
    cases s <;> simp [Scalar.cell]
  | arr es c1 c2 =>
    obtain ⟨vs, f, h1, _⟩ := hr
    rw [h1]; simp
  | itab kvs ws =>
    obtain ⟨vs, f, h1, _⟩ := hr
    rw [h1]; simp

theorem Slot.val_tab {D : Sections} {K : List Key → Option HashValue} {h : Heap} {p : List Key} (s : D.Slot K h p) (ht : D.isTable p) : D.valueAt p = .none := by
  cases e : D.valueAt p with
  | none => rfl
  | some t =>
    obtain ⟨a, fp, e1, e2⟩ := s.val t e
    obtain ⟨v, l, f1, _, f3, f4⟩ := s.tab ht
    rw [e1] at f1
    simp at f1
    by_cases hh : p ∈ D.heads
    · obtain ⟨a', g1, g2⟩ := f3 hh
      rw [g1] at f1
      simp at f1
      rw [← f1.1] at g2
      exact absurd g2 (Rep.notTable e2)
    · have := f4 hh
      rw [this] at f1
      simp at f1

theorem Slot.val_arr {D : Sections} {K : List Key → Option HashValue} {h : Heap} {p : List Key} (s : D.Slot K h p) (ht : D.count p ≠ .none) : D.valueAt p = .none := by
  cases e : D.valueAt p with
  | none => rfl
  | some t =>
    obtain ⟨a, fp, e1, e2⟩ := s.val t e
    obtain ⟨n, hn⟩ := Option.ne_none_iff_exists'.mp ht
    have := s.arr n hn
    rw [e1] at this
    simp at this

theorem Slot.arr_tab {D : Sections} {K : List Key → Option HashValue} {h : Heap} {p : List Key} (s : D.Slot K h p) (ht : D.isTable p) : D.count p = .none := by
  cases e : D.count p with
  | none => rfl
  | some n =>
    have := s.arr n e
    obtain ⟨v, l, f1, _⟩ := s.tab ht
    rw [this] at f1
    simp at f1

/-- The entries are what they should be. -/
structure Good (D : Sections) (K : List Key → Option HashValue) (h : Heap) : Prop where
  slot : ∀ p, PathWf p → D.Slot K h p
  closed : ∀ r, D.Spot r → D.Solid r
  wf : ∀ r, D.Spot r → PathWf r
  nwf : ∀ e ∈ D.names, KeyWf e.2
  pos : ∀ e ∈ D.arrs, 1 ≤ e.2

theorem isTable_names {D : Sections} {p : List Key} {k : Str} (h : (p, k) ∈ D.names) : D.isTable p := .inr (.inr (.inr ⟨_, h, rfl⟩))

theorem PathWf.pre {p q : List Key} (h : PathWf q) (hp : p <+: q) : PathWf p := by
  obtain ⟨r, rfl⟩ := hp
  exact h.left

/-- There are no values above what is solid. -/
theorem noVal_of {D : Sections} {K : List Key → Option HashValue} {h : Heap} (g : ∀ e ∈ D.vals, D.Slot K h e.1) {p : List Key} (hs : D.Solid p) (hv : D.valueAt p = none) :
    ∀ e ∈ D.vals, ¬ e.1 <+: p := by
  rintro e he ⟨q, hq⟩
  have hsl := g e he
  have hev := valueAt_val he
  cases q with
  | nil =>
    rw [List.append_nil] at hq
    rw [hq] at hev
    exact hev hv
  | cons k q =>
    cases k with
    | str k => exact hev (hsl.val_tab (isTable_names (hs.str _ _ _ hq.symm)))
    | idx i =>
      obtain ⟨n, hn, _⟩ := hs.idx _ _ _ hq.symm
      exact hev (hsl.val_arr (by rw [hn]; simp))

theorem Good.noVal {D : Sections} {K : List Key → Option HashValue} {h : Heap} (g : D.Good K h) {p : List Key} (hs : D.Solid p) (hv : D.valueAt p = none) :
    ∀ e ∈ D.vals, ¬ e.1 <+: p := noVal_of (fun e he => g.slot e.1 (g.wf e.1 (.inl ⟨e, he, rfl⟩))) hs hv

theorem prefix_or {a b : List Key} {k : Str} {q : List Key} (h : a <+: b ++ .str k :: q) : a <+: b ∨ b ++ [.str k] <+: a := by
  rcases Nat.lt_or_ge b.length a.length with hl | hl
  · right
    have : b ++ [.str k] <+: b ++ .str k :: q := ⟨q, by simp⟩
    exact List.prefix_of_prefix_length_le this h (by simp; omega)
  · left
    exact List.prefix_of_prefix_length_le h (List.prefix_append _ _) hl

/-- There is nothing at a new name. -/
theorem fresh_of {D : Sections} (closed : ∀ r, D.Spot r → D.Solid r) {b : List Key} {k : Str} (hv : ∀ e ∈ D.vals, ¬ e.1 <+: b)
    (hk : (b, k) ∉ D.names) (q : List Key) : D.valueAt (b ++ .str k :: q) = none ∧ D.count (b ++ .str k :: q) = none ∧ ¬ D.isTable (b ++ .str k :: q) := by
  refine ⟨?_, ?_, ?_⟩
  · rw [valueAt_none]
    intro e he hp
    rcases prefix_or hp with h1 | ⟨r, h1⟩
    · exact absurd h1 (hv e he)
    · exact absurd ((closed e.1 (.inl ⟨e, he, rfl⟩)).str b k r (by rw [← h1]; simp)) hk
  · rw [count_none]
    intro e he h1
    exact hk ((closed e.1 (.inr (.inr (.inl ⟨e, he, rfl⟩)))).str b k q h1)
  · rintro (h1 | h1 | ⟨e, he, h1⟩ | ⟨e, he, h1⟩)
    · simp at h1
    · exact hk ((closed _ (.inr (.inl h1))).str b k q rfl)
    · have hq : q ≠ [] := by
        rintro rfl
        have := congrArg List.getLast? h1
        simp at this
      have h2 := congrArg List.dropLast h1
      rw [List.dropLast_concat, List.dropLast_append_of_ne_nil (by simp)] at h2
      rw [show (Key.str k :: q).dropLast = .str k :: q.dropLast by cases q with
        | nil => exact absurd rfl hq
        | cons => rfl] at h2
      exact hk ((closed e.1 (.inr (.inr (.inl ⟨e, he, rfl⟩)))).str b k _ h2.symm)
    · exact hk ((closed e.1 (.inr (.inr (.inr ⟨e, he, rfl⟩)))).str b k q h1)

theorem Good.fresh {D : Sections} {K : List Key → Option HashValue} {h : Heap} (g : D.Good K h) {b : List Key} {k : Str} (hs : D.Solid b) (hv : D.valueAt b = none)
    (hk : (b, k) ∉ D.names) (q : List Key) : D.valueAt (b ++ .str k :: q) = none ∧ D.count (b ++ .str k :: q) = none ∧ ¬ D.isTable (b ++ .str k :: q) :=
  fresh_of g.closed (g.noVal hs hv) hk q

theorem Good.freshK {D : Sections} {K : List Key → Option HashValue} {h : Heap} (g : D.Good K h) {b : List Key} {k : Str} (hs : D.Solid b) (hv : D.valueAt b = none)
    (hk : (b, k) ∉ D.names) (q : List Key) (hw : PathWf (b ++ .str k :: q)) : K (b ++ .str k :: q) = none := by
  obtain ⟨h1, h2, h3⟩ := g.fresh hs hv hk q
  exact (g.slot _ hw).none h1 h2 h3

/-! ## A new name in a table -/

theorem Lists.snoc {D D' : Sections} {b : List Key} {k : Str} {l : List Str} (hl : D.Lists b l) (hn : D'.names = D.names ++ [(b, k)]) (hs : D'.stray = D.stray) :
    D'.Lists b (insertUniq l k).1 := by
  have key : ∀ l, l = D.namesOf b → (insertUniq l k).1 = D'.namesOf b := by
    rintro _ rfl
    rw [namesOf_snoc hn, insertUniq]
    by_cases hk : k ∈ D.namesOf b <;> simp [hk]
  unfold Lists at hl ⊢
  split
  next h0 =>
    subst h0
    rw [if_pos rfl] at hl
    refine ⟨fun h => key l (hl.1 (by rw [← hs]; exact h)), fun x => ?_⟩
    rw [mem_insertUniq, hl.2, mem_namesOf, mem_namesOf, hn, hs]
    simp
    grind
  next h0 =>
    rw [if_neg h0] at hl
    exact key l hl

theorem Lists.congr {D D' : Sections} {p : List Key} {l : List Str} (hl : D.Lists p l) (hn : D'.namesOf p = D.namesOf p) (hs : p = [] → D'.stray = D.stray) : D'.Lists p l := by
  unfold Lists at hl ⊢
  split
  next h0 =>
    subst h0
    rw [if_pos rfl] at hl
    rw [hs rfl, hn]
    exact hl
  next h0 =>
    rw [if_neg h0] at hl
    rw [hn]; exact hl

theorem namesOf_other {D D' : Sections} {b p : List Key} {k : Str} (hn : D'.names = D.names ++ [(b, k)]) (h : b ≠ p) : D'.namesOf p = D.namesOf p := by
  rw [namesOf_snoc hn, if_neg (fun h' => h h'.1)]

theorem TabEntry.congr {D D' : Sections} {K K' : List Key → Option HashValue} {h : Heap} {p : List Key} (ht : D.TabEntry K h p) (l : Heap) (hk : K' p = K p)
    (hn : D'.namesOf p = D.namesOf p) (hs : p = [] → D'.stray = D.stray) (hh : p ∈ D'.heads ↔ p ∈ D.heads) : D'.TabEntry K' (h ++ l) p := by
  obtain ⟨v, ls, e1, e2, e3, e4⟩ := ht
  refine ⟨v, ls, hk.trans e1, e2.congr hn hs, fun hp => ?_, fun hp => e4 (fun h => hp (hh.mpr h))⟩
  obtain ⟨a, f1, f2⟩ := e3 (hh.mp hp)
  exact ⟨a, f1, by rw [List.getElem?_append_left]; exact f2; exact (List.getElem?_eq_some_iff.mp f2).1⟩

theorem TabEntry.snoc {D D' : Sections} {K K' : List Key → Option HashValue} {h : Heap} {b : List Key} {k : Str} (ht : D.TabEntry K h b) (l : Heap) (hk : K' b = upd (K b) (.str k))
    (hn : D'.names = D.names ++ [(b, k)]) (hs : D'.stray = D.stray) (hh : D'.heads = D.heads) : D'.TabEntry K' (h ++ l) b := by
  obtain ⟨v, ls, e1, e2, e3, e4⟩ := ht
  refine ⟨v, (insertUniq ls k).1, by rw [hk, e1]; rfl, e2.snoc hn hs, fun hp => ?_, fun hp => e4 (fun h => hp (by rw [hh]; exact h))⟩
  obtain ⟨a, f1, f2⟩ := e3 (by rw [← hh]; exact hp)
  exact ⟨a, f1, by rw [List.getElem?_append_left]; exact f2; exact (List.getElem?_eq_some_iff.mp f2).1⟩

theorem Solid.mono {D D' : Sections} {r : List Key} (hs : D.Solid r) (hn : ∀ e ∈ D.names, e ∈ D'.names) (hc : ∀ a n, D.count a = some n → ∃ n', D'.count a = some n' ∧ n ≤ n') : D'.Solid r := by
  refine ⟨fun a k q e => hn _ (hs.str a k q e), fun a i q e => ?_⟩
  obtain ⟨n, h1, h2⟩ := hs.idx a i q e
  obtain ⟨n', h3, h4⟩ := hc a n h1
  exact ⟨n', h3, by omega⟩

theorem Solid.push {D : Sections} {r : List Key} (hs : D.Solid r) {k : Str} (hk : (r, k) ∈ D.names) : D.Solid (r ++ [.str k]) := by
  constructor
  · intro a j q e
    rcases List.eq_nil_or_concat q with rfl | ⟨q', x, rfl⟩
    · obtain ⟨h1, h2⟩ := List.append_inj' (show r ++ [Key.str k] = a ++ [.str j] from e) rfl
      simp at h2
      rw [← h1, ← h2]; exact hk
    · have h1 : r ++ [Key.str k] = (a ++ .str j :: q') ++ [x] := by rw [e]; simp
      obtain ⟨h1, h2⟩ := List.append_inj' h1 rfl
      exact hs.str a j q' h1
  · intro a j q e
    rcases List.eq_nil_or_concat q with rfl | ⟨q', x, rfl⟩
    · obtain ⟨h1, h2⟩ := List.append_inj' (show r ++ [Key.str k] = a ++ [.idx j] from e) rfl
      simp at h2
    · have h1 : r ++ [Key.str k] = (a ++ .idx j :: q') ++ [x] := by rw [e]; simp
      obtain ⟨h1, h2⟩ := List.append_inj' h1 rfl
      exact hs.idx a j q' h1

theorem drop_prefix {P q : List Key} (h : P <+: q) : ∃ r, q = P ++ r ∧ q.drop P.length = r := by
  obtain ⟨r, rfl⟩ := h
  exact ⟨r, rfl, by simp⟩

/-- A key/value pair. -/
theorem Good.kv {D D' : Sections} {K K' : List Key → Option HashValue} {h : Heap} (g : D.Good K h) {b : List Key} {k : Str} {v : VT} (ht : D.isTable b) (hs : D.Solid b)
    (hk : (b, k) ∉ D.names) (hw : PathWf (b ++ [.str k])) (h1 : D'.vals = D.vals ++ [(b ++ [.str k], v)]) (h2 : D'.heads = D.heads) (h3 : D'.names = D.names ++ [(b, k)])
    (h4 : D'.arrs = D.arrs) (h5 : D'.stray = D.stray)
    (hK : ∀ q, PathWf q → K' q = if b ++ [.str k] <+: q then v.slot h.length (q.drop (b ++ [Key.str k]).length) else if q = b then upd (K q) (.str k) else K q) :
    D'.Good K' (h ++ v.cells h.length) := by
  have hwb : PathWf b := hw.left
  have hbv : D.valueAt b = none := (g.slot b hwb).val_tab ht
  have hkw : KeyWf k := hw.names k (by simp)
  have hself : ∀ q, b ++ [.str k] <+: q → q ≠ b := by
    rintro q hq rfl
    have := hq.length_le
    simp at this
    omega
  have hcount : ∀ q, D'.count q = D.count q := count_congr h4
  have htab : ∀ q, D'.isTable q ↔ D.isTable q := by
    intro q
    unfold isTable at ht ⊢
    rw [h2, h4, h3]
    simp only [List.mem_append, List.mem_singleton]
    constructor
    · rintro (h | h | h | ⟨e, he | he, h⟩)
      · exact .inl h
      · exact .inr (.inl h)
      · exact .inr (.inr (.inl h))
      · exact .inr (.inr (.inr ⟨e, he, h⟩))
      · subst he h; exact ht
    · rintro (h | h | h | ⟨e, he, h⟩)
      · exact .inl h
      · exact .inr (.inl h)
      · exact .inr (.inr (.inl h))
      · exact .inr (.inr (.inr ⟨e, .inl he, h⟩))
  have hsol : ∀ r, D.Solid r → D'.Solid r := fun r hr => hr.mono (fun e he => by rw [h3]; simp [he]) (fun a n hn => ⟨n, by rw [hcount]; exact hn, Nat.le_refl _⟩)
  have hspot : ∀ r, D'.Spot r → D.Spot r ∨ r = b ∨ r = b ++ [.str k] := by
    unfold Spot
    rw [h1, h2, h3, h4]
    simp only [List.mem_append, List.mem_singleton]
    rintro r (⟨e, he | he, h⟩ | h | h | ⟨e, he | he, h⟩)
    · exact .inl (.inl ⟨e, he, h⟩)
    · subst he; exact .inr (.inr h.symm)
    · exact .inl (.inr (.inl h))
    · exact .inl (.inr (.inr (.inl h)))
    · exact .inl (.inr (.inr (.inr ⟨e, he, h⟩)))
    · subst he; exact .inr (.inl h.symm)
  refine ⟨fun p hp => ?_, fun r hr => ?_, fun r hr => ?_, fun e he => ?_, ?_⟩
  · by_cases hpre : b ++ [.str k] <+: p
    · obtain ⟨q, rfl, hq⟩ := drop_prefix hpre
      have hKp := hK _ hp
      rw [if_pos hpre, hq] at hKp
      obtain ⟨f1, f2, f3⟩ := g.fresh hs hbv hk q
      rw [show b ++ Key.str k :: q = b ++ [.str k] ++ q by simp] at f1 f2 f3
      have hva : D'.valueAt (b ++ [.str k] ++ q) = v.part q := by
        rw [valueAt_kv h1, f1, if_pos (by simp), hq]; simp
      rcases v.slot_part h q with ⟨g1, g2⟩ | ⟨t', a, g1, g2, g3⟩
      · rw [g2] at hKp
        refine ⟨fun t ht => ?_, fun n hn => ?_, fun ht => ?_, fun _ _ _ => hKp⟩
        · rw [hva, g1] at ht; simp at ht
        · rw [hcount, f2] at hn; simp at hn
        · exact absurd ((htab _).mp ht) f3
      · rw [g2] at hKp
        refine ⟨fun t ht => ?_, fun n hn => ?_, fun ht => ?_, fun hv => ?_⟩
        · rw [hva, g1] at ht
          simp at ht; subst ht
          obtain ⟨fp, h⟩ := g3 []
          rw [List.append_nil] at h
          exact ⟨a, fp, hKp, h⟩
        · rw [hcount, f2] at hn; simp at hn
        · exact absurd ((htab _).mp ht) f3
        · rw [hva, g1] at hv; simp at hv
    · have hKp := hK _ hp
      rw [if_neg hpre] at hKp
      have hva : D'.valueAt p = D.valueAt p := by
        rw [valueAt_kv h1, if_neg (by simpa using hpre)]; simp
      have sl := g.slot p hp
      by_cases hpb : p = b
      · subst hpb
        rw [if_pos rfl] at hKp
        refine ⟨fun t ht => ?_, fun n hn => ?_, fun _ => ?_, fun _ _ h => absurd ((htab _).mpr ht) h⟩
        · rw [hva, hbv] at ht; simp at ht
        · rw [hcount, sl.arr_tab ht] at hn; simp at hn
        · exact (sl.tab ht).snoc _ hKp h3 h5 h2
      · rw [if_neg hpb] at hKp
        refine ⟨fun t ht => ?_, fun n hn => ?_, fun ht => ?_, fun q1 q2 q3 => ?_⟩
        · rw [hva] at ht
          obtain ⟨a, fp, e1, e2⟩ := sl.val t ht
          exact ⟨a, fp, hKp.trans e1, e2.append _⟩
        · rw [hcount] at hn
          exact hKp.trans (sl.arr n hn)
        · exact (sl.tab ((htab _).mp ht)).congr _ hKp (namesOf_other h3 (Ne.symm hpb)) (fun _ => h5) (by rw [h2])
        · rw [hva] at q1
          rw [hcount] at q2
          rw [htab] at q3
          exact hKp.trans (sl.none q1 q2 q3)
  · rcases hspot r hr with h | rfl | rfl
    · exact hsol r (g.closed r h)
    · exact hsol _ hs
    · exact (hsol _ hs).push (by rw [h3]; simp)
  · rcases hspot r hr with h | rfl | rfl
    · exact g.wf r h
    · exact hwb
    · exact hw
  · rw [h3] at he
    simp at he
    rcases he with he | rfl
    · exact g.nwf e he
    · exact hkw
  · rw [h4]; exact g.pos

/-! ## The names of a header -/

/-- Everything named is there, but for `X`. -/
def Down (D : Sections) (X : List Key) : Prop :=
  ∀ p k, (p, k) ∈ D.names → p ++ [.str k] ≠ X → D.valueAt (p ++ [.str k]) ≠ none ∨ D.count (p ++ [.str k]) ≠ none ∨ D.isTable (p ++ [.str k])

/-- The entries are what they should be; there is one for a table at `b`, though there may be nothing in it yet. -/
structure GoodAt (D : Sections) (K : List Key → Option HashValue) (h : Heap) (b : List Key) : Prop where
  slot : ∀ p, PathWf p → p ≠ b → D.Slot K h p
  tab : D.TabEntry K h b
  nv : D.valueAt b = none
  nc : D.count b = none
  solid : D.Solid b
  closed : ∀ r, D.Spot r → D.Solid r
  wf : ∀ r, D.Spot r → PathWf r
  nwf : ∀ e ∈ D.names, KeyWf e.2
  pos : ∀ e ∈ D.arrs, 1 ≤ e.2
  down : D.Down b

theorem GoodAt.noVal {D : Sections} {K : List Key → Option HashValue} {h : Heap} {b : List Key} (g : D.GoodAt K h b) : ∀ e ∈ D.vals, ¬ e.1 <+: b :=
  noVal_of (fun e he => g.slot e.1 (g.wf e.1 (.inl ⟨e, he, rfl⟩)) (fun h => valueAt_val he (by rw [h]; exact g.nv))) g.solid g.nv

/-- The document with one more name. -/
abbrev withName (D : Sections) (b : List Key) (k : Str) : Sections := { D with names := D.names ++ [(b, k)] }

theorem withName_isTable {D : Sections} {b p : List Key} {k : Str} : (D.withName b k).isTable p ↔ D.isTable p ∨ p = b := by
  unfold isTable
  simp only [List.mem_append, List.mem_singleton]
  constructor
  · rintro (h | h | h | ⟨e, he | he, h⟩)
    · exact .inl (.inl h)
    · exact .inl (.inr (.inl h))
    · exact .inl (.inr (.inr (.inl h)))
    · exact .inl (.inr (.inr (.inr ⟨e, he, h⟩)))
    · subst he; exact .inr h.symm
  · rintro ((h | h | h | ⟨e, he, h⟩) | rfl)
    · exact .inl h
    · exact .inr (.inl h)
    · exact .inr (.inr (.inl h))
    · exact .inr (.inr (.inr ⟨e, .inl he, h⟩))
    · exact .inr (.inr (.inr ⟨_, .inr rfl, rfl⟩))

theorem withName_spot {D : Sections} {b r : List Key} {k : Str} (h : (D.withName b k).Spot r) : D.Spot r ∨ r = b := by
  unfold Spot at h
  simp only [List.mem_append, List.mem_singleton] at h
  rcases h with h | h | h | ⟨e, he | he, h⟩
  · exact .inl (.inl h)
  · exact .inl (.inr (.inl h))
  · exact .inl (.inr (.inr (.inl h)))
  · exact .inl (.inr (.inr (.inr ⟨e, he, h⟩)))
  · subst he; exact .inr h.symm

theorem withName_solid {D : Sections} {b r : List Key} {k : Str} (h : D.Solid r) : (D.withName b k).Solid r :=
  h.mono (fun e he => by simp [he]) (fun a n hn => ⟨n, hn, Nat.le_refl _⟩)

theorem Slot.congr {D D' : Sections} {K K' : List Key → Option HashValue} {h : Heap} {p : List Key} (s : D.Slot K h p) (l : Heap) (hk : K' p = K p) (hv : D'.valueAt p = D.valueAt p)
    (hc : D'.count p = D.count p) (ht : D'.isTable p ↔ D.isTable p) (hn : D'.namesOf p = D.namesOf p) (hs : p = [] → D'.stray = D.stray) (hh : p ∈ D'.heads ↔ p ∈ D.heads) :
    D'.Slot K' (h ++ l) p := by
  refine ⟨fun t h1 => ?_, fun n h1 => ?_, fun h1 => ?_, fun q1 q2 q3 => ?_⟩
  · rw [hv] at h1
    obtain ⟨a, fp, e1, e2⟩ := s.val t h1
    exact ⟨a, fp, hk.trans e1, e2.append _⟩
  · rw [hc] at h1
    exact hk.trans (s.arr n h1)
  · exact (s.tab (ht.mp h1)).congr _ hk hn hs hh
  · rw [hv] at q1
    rw [hc] at q2
    rw [ht] at q3
    exact hk.trans (s.none q1 q2 q3)

/-- The name of the next table goes into the table at `b`. -/
theorem GoodAt.name {D : Sections} {K K' : List Key → Option HashValue} {h : Heap} {b : List Key} (g : D.GoodAt K h b) {k : Str} (hw : PathWf (b ++ [.str k]))
    (hb : K' b = upd (K b) (.str k)) {p : List Key} (hp : PathWf p) (hKp : p ≠ b → K' p = K p) : (D.withName b k).Slot K' h p := by
  by_cases hpb : p = b
  · subst hpb
    refine ⟨fun t ht => ?_, fun n hn => ?_, fun _ => ?_, fun _ _ h => absurd (withName_isTable.mpr (.inr rfl)) h⟩
    · have : D.valueAt p = some t := ht
      rw [g.nv] at this; simp at this
    · have : D.count p = some n := hn
      rw [g.nc] at this; simp at this
    · have := g.tab.snoc (D' := D.withName p k) [] hb rfl rfl rfl
      rwa [List.append_nil] at this
  · have := (g.slot p hp hpb).congr (D' := D.withName b k) [] (hKp hpb) rfl rfl (by rw [withName_isTable]; simp [hpb]) (namesOf_other rfl (Ne.symm hpb)) (fun _ => rfl) Iff.rfl
    rwa [List.append_nil] at this

theorem GoodAt.nameClosed {D : Sections} {K : List Key → Option HashValue} {h : Heap} {b : List Key} (g : D.GoodAt K h b) (k : Str) :
    ∀ r, (D.withName b k).Spot r → (D.withName b k).Solid r := fun r hr => by
  rcases withName_spot hr with h | rfl
  · exact withName_solid (g.closed r h)
  · exact withName_solid g.solid

theorem GoodAt.nameWf {D : Sections} {K : List Key → Option HashValue} {h : Heap} {b : List Key} (g : D.GoodAt K h b) (k : Str) (hb : PathWf b) :
    ∀ r, (D.withName b k).Spot r → PathWf r := fun r hr => by
  rcases withName_spot hr with h | rfl
  · exact g.wf r h
  · exact hb

theorem GoodAt.nameNwf {D : Sections} {K : List Key → Option HashValue} {h : Heap} {b : List Key} (g : D.GoodAt K h b) {k : Str} (hk : KeyWf k) :
    ∀ e ∈ (D.withName b k).names, KeyWf e.2 := fun e he => by
  simp at he
  rcases he with he | rfl
  · exact g.nwf e he
  · exact hk

theorem GoodAt.nameDown {D : Sections} {K : List Key → Option HashValue} {h : Heap} {b : List Key} (g : D.GoodAt K h b) (k : Str) : (D.withName b k).Down (b ++ [.str k]) := by
  intro p x hx hne
  simp at hx
  by_cases hpb : p ++ [.str x] = b
  · exact .inr (.inr (withName_isTable.mpr (.inr hpb)))
  · rcases hx with hx | ⟨rfl, rfl⟩
    · rcases g.down p x hx hpb with h | h | h
      · exact .inl h
      · exact .inr (.inl h)
      · exact .inr (.inr (withName_isTable.mpr (.inl h)))
    · exact absurd rfl hne

/-- The names of a header, each with the path of the table it is in, if there are no arrays of tables on the way. -/
def wayN : List Key → List Str → List (List Key × Str)
  | _, [] => []
  | b, k :: ks => (b, k) :: wayN (b ++ [.str k]) ks

/-- The document with the names of a header. -/
abbrev withWay (D : Sections) (b : List Key) (ks : List Str) : Sections := { D with names := D.names ++ wayN b ks }

theorem withWay_cons (D : Sections) (b : List Key) (k : Str) (ks : List Str) : D.withWay b (k :: ks) = (D.withName b k).withWay (b ++ [.str k]) ks := by
  simp [withWay, withName, wayN]

theorem implicitLoop_path {h : Heap} : ∀ (ks : List Str) (D : Sections) (m : KMap) (b : List Key) (first : Bool), D.GoodAt (KP m) h b → Only m → ks ≠ [] → PathWf (b ++ Tomllib.names ks) →
    (∀ x y, x ≠ [] → y ≠ [] → x ++ y = ks → D.valueAt (b ++ Tomllib.names x) = none ∧ D.count (b ++ Tomllib.names x) = none) →
    (b = [] → 2 ≤ ks.length → ks.headD [] ∈ D.stray → ([], ks.headD []) ∈ D.names) →
    ∃ m', implicitLoop ks m (parP b) first = .ok m' ∧ (D.withWay b ks).Good (KP m') h ∧ Only m' ∧ (D.withWay b ks).Down (b ++ Tomllib.names ks) ∧ (D.withWay b ks).Solid (b ++ Tomllib.names ks)
  | [], _, _, _, _, _, _, hne, _, _, _ => absurd rfl hne
  | k :: ks, D, m, b, first, g, ho, _, hw, hway, hclear => by
    have hw1 : PathWf (b ++ [.str k]) := by
      have : PathWf ((b ++ [.str k]) ++ Tomllib.names ks) := by simpa [Tomllib.names] using hw
      exact this.left
    have hwb : PathWf b := hw1.left
    have hkw : KeyWf k := hw1.names k (by simp)
    obtain ⟨v, l, e1, e2, e3, e4⟩ := g.tab
    have hg : m.get? (parP b) = some ⟨v, .keys l⟩ := e1
    have hKb : ∀ q, PathWf q → KP (m.insert (parP b) ⟨v, .keys (insertUniq l k).1⟩) q = if q = b then upd (KP m b) (.str k) else KP m q := by
      intro q hq
      rw [KP_insert hwb hq, e1]
      by_cases h : q = b
      · rw [if_pos h, if_pos h.symm]; rfl
      · rw [if_neg h, if_neg (Ne.symm h)]
    by_cases hks : ks = []
    · subst hks
      refine ⟨m.insert (parP b) ⟨v, .keys (insertUniq l k).1⟩, by simp [implicitLoop, hg], ⟨fun p hp => ?_, g.nameClosed k, g.nameWf k hwb, g.nameNwf hkw, g.pos⟩, ho.insert hwb _, g.nameDown k,
        (withName_solid g.solid).push (by simp)⟩
      exact g.name hw1 (by rw [hKb b hwb, if_pos rfl]) hp (fun hpb => by rw [hKb p hp, if_neg hpb])
    · have hb1 : b ++ [.str k] ≠ b := by simp
      have hfree : D.valueAt (b ++ [.str k]) = none ∧ D.count (b ++ [.str k]) = none := hway [k] ks (by simp) hks rfl
      have hlk : (if parP b ≠ root then parP b ++ lit% "." ++ k else k) = parP (b ++ [.str k]) := by
        rw [parP_ne (p := b ++ [Key.str k]) (by simp), ← dotP_add hwb, dotP]
        by_cases hb0 : b = []
        · subst hb0; simp [parP]
        · rw [parP_ne hb0, if_pos (keyOf_ne_root hwb), if_neg hb0]
      have key : ∀ m1, (∀ q, PathWf q → q ≠ b ++ [.str k] → KP m1 q = if q = b then upd (KP m b) (.str k) else KP m q) → Only m1 → (D.withName b k).TabEntry (KP m1) h (b ++ [.str k]) →
          ∃ m', implicitLoop ks m1 (parP (b ++ [.str k])) false = .ok m' ∧ (D.withWay b (k :: ks)).Good (KP m') h ∧ Only m' ∧
            (D.withWay b (k :: ks)).Down (b ++ Tomllib.names (k :: ks)) ∧ (D.withWay b (k :: ks)).Solid (b ++ Tomllib.names (k :: ks)) := by
        intro m1 hm1 ho1 ht1
        have g1 : (D.withName b k).GoodAt (KP m1) h (b ++ [.str k]) :=
          ⟨fun p hp hpb => g.name hw1 (by rw [hm1 b hwb (Ne.symm hb1), if_pos rfl]) hp (fun h => by rw [hm1 p hp hpb, if_neg h]), ht1, hfree.1, hfree.2,
            (withName_solid g.solid).push (by simp), g.nameClosed k, g.nameWf k hwb, g.nameNwf hkw, g.pos, g.nameDown k⟩
        obtain ⟨m', r1, r2, r3, r4, r5⟩ := implicitLoop_path ks _ m1 _ false g1 ho1 hks (by simpa [Tomllib.names] using hw) (fun x y hx hy e => by
          have := hway (k :: x) y (by simp) hy (by simp [e])
          have hh : b ++ [Key.str k] ++ Tomllib.names x = b ++ Tomllib.names (k :: x) := by simp [Tomllib.names]
          rw [hh]; exact this) (fun h => by simp at h)
        rw [withWay_cons]
        have hh : b ++ Tomllib.names (k :: ks) = b ++ [Key.str k] ++ Tomllib.names ks := by simp [Tomllib.names]
        rw [hh]
        exact ⟨m', r1, r2, r3, r4, r5⟩
      by_cases hkl : k ∈ l
      · have hkn : (b, k) ∈ D.names := by
          unfold Lists at e2
          split at e2
          next hb0 =>
            subst hb0
            rcases (e2.2 k).mp hkl with h | h
            · exact mem_namesOf.mp h
            · refine hclear rfl ?_ h
              cases ks with
              | nil => exact absurd rfl hks
              | cons => simp
          · rw [e2] at hkl; exact mem_namesOf.mp hkl
        have ht : D.isTable (b ++ [.str k]) := by
          rcases g.down b k hkn hb1 with h | h | h
          · exact absurd hfree.1 h
          · exact absurd hfree.2 h
          · exact h
        obtain ⟨m', r1, r2⟩ := key (m.insert (parP b) ⟨v, .keys (insertUniq l k).1⟩) (fun q hq _ => hKb q hq) (ho.insert hwb _) (by
          have := ((g.slot _ hw1 hb1).tab ht).congr (D' := D.withName b k) (K' := KP (m.insert (parP b) ⟨v, .keys (insertUniq l k).1⟩)) [] (by rw [hKb _ hw1, if_neg hb1]) (namesOf_other rfl (Ne.symm hb1)) (fun _ => rfl) Iff.rfl
          rwa [List.append_nil] at this)
        refine ⟨m', ?_, r2⟩
        rw [implicitLoop]
        simp only [hg, if_neg hks]
        rw [hlk, ← r1]
        simp [insertUniq, hkl]
      · have hkn : (b, k) ∉ D.names := by
          intro hh
          unfold Lists at e2
          split at e2
          next hb0 =>
            subst hb0
            exact hkl ((e2.2 k).mpr (.inl (mem_namesOf.mpr hh)))
          · rw [e2] at hkl; exact hkl (mem_namesOf.mpr hh)
        have hfr := fresh_of g.closed g.noVal hkn
        obtain ⟨m', r1, r2⟩ := key ((m.insert (parP b) ⟨v, .keys (insertUniq l k).1⟩).insert (parP (b ++ [.str k])) ⟨none, .keys []⟩)
          (fun q hq hqb => by rw [KP_insert hw1 hq, if_neg (Ne.symm hqb)]; exact hKb q hq) ((ho.insert hwb _).insert hw1 _) (by
          refine ⟨none, [], by rw [KP_insert hw1 hw1, if_pos rfl], ?_, fun hh => ?_, fun _ => rfl⟩
          · unfold Lists
            rw [if_neg (by simp), namesOf_other rfl (Ne.symm hb1)]
            exact (namesOf_nil fun x hx => (hfr []).2.2 (isTable_names hx)).symm
          · exact absurd (.inr (.inl hh)) (hfr []).2.2)
        refine ⟨m', ?_, r2⟩
        rw [implicitLoop]
        simp only [hg, if_neg hks]
        rw [hlk, ← r1]
        simp [insertUniq, hkl]

/-! ## A table, an element of an array of tables -/

theorem Slot.tab_eq {D : Sections} {K : List Key → Option HashValue} {h : Heap} {p : List Key} (s : D.Slot K h p) (ht : D.isTable p) (hp : p ≠ []) (hh : p ∉ D.heads) :
    K p = some ⟨Option.none, .keys (D.namesOf p)⟩ := by
  obtain ⟨v, l, e1, e2, e3, e4⟩ := s.tab ht
  rw [e1, e4 hh]
  unfold Lists at e2
  rw [if_neg hp] at e2
  rw [e2]

theorem Down.all {D : Sections} {X : List Key} (h : D.Down X) (hX : D.isTable X) (Y : List Key) : D.Down Y := by
  intro p k hk _
  by_cases e : p ++ [.str k] = X
  · rw [e]; exact .inr (.inr hX)
  · exact h p k hk e

/-- A table with a header. -/
theorem Good.head {D D' : Sections} {K K' : List Key → Option HashValue} {h : Heap} (g : D.Good K h) {T : List Key} (hs : D.Solid T) (hT : T ≠ []) (hw : PathWf T)
    (hd : D.Down T) (nv : D.valueAt T = none) (nc : D.count T = none) (h1 : D'.vals = D.vals) (h2 : D'.heads = D.heads ++ [T]) (h3 : D'.names = D.names)
    (h4 : D'.arrs = D.arrs) (hK : ∀ q, PathWf q → q ≠ T → q ≠ [] → K' q = K q) (hKT : K' T = some ⟨some h.length, .keys (D.namesOf T)⟩)
    (hr : D'.TabEntry K' (h ++ [.table]) []) (hv0 : D.valueAt [] = none) (hc0 : D.count [] = none) : D'.Good K' (h ++ [.table]) ∧ (∀ Y, D'.Down Y) ∧ D'.isTable T ∧ D'.Solid T := by
  have htab : ∀ q, D'.isTable q ↔ D.isTable q ∨ q = T := by
    intro q
    unfold isTable
    rw [h2, h4, h3]
    simp only [List.mem_append, List.mem_singleton]
    grind
  have hsol : ∀ r, D.Solid r → D'.Solid r := fun r hr => hr.mono (fun e he => by rw [h3]; exact he) (fun a n hn => ⟨n, by rw [count_congr h4]; exact hn, Nat.le_refl _⟩)
  have hspot : ∀ r, D'.Spot r → D.Spot r ∨ r = T := by
    unfold Spot
    rw [h1, h2, h3, h4]
    simp only [List.mem_append, List.mem_singleton]
    grind
  have hT' : D'.isTable T := (htab T).mpr (.inr rfl)
  have hd' : D'.Down T := by
    intro p k hk hne
    rw [h3] at hk
    rw [valueAt_congr h1, count_congr h4, htab]
    rcases hd p k hk hne with h | h | h
    · exact .inl h
    · exact .inr (.inl h)
    · exact .inr (.inr (.inl h))
  refine ⟨⟨fun p hp => ?_, fun r hr => ?_, fun r hr => ?_, ?_, ?_⟩, hd'.all hT', hT', hsol T hs⟩
  · by_cases hpT : p = T
    · subst hpT
      refine ⟨fun t ht => ?_, fun n hn => ?_, fun _ => ?_, fun _ _ h => absurd hT' h⟩
      · rw [valueAt_congr h1, nv] at ht; simp at ht
      · rw [count_congr h4, nc] at hn; simp at hn
      · refine ⟨_, _, hKT, ?_, fun _ => ⟨_, rfl, by simp⟩, fun hh => absurd (by rw [h2]; simp) hh⟩
        unfold Lists
        rw [if_neg hT, namesOf_congr h3]
    · by_cases hp0 : p = []
      · subst hp0
        refine ⟨fun t ht => ?_, fun n hn => ?_, fun _ => hr, fun _ _ h => absurd (.inl rfl) h⟩
        · rw [valueAt_congr h1, hv0] at ht; simp at ht
        · rw [count_congr h4, hc0] at hn; simp at hn
      · exact (g.slot p hp).congr _ (hK p hp hpT hp0) (valueAt_congr h1 p) (count_congr h4 p) (by rw [htab]; simp [hpT]) (namesOf_congr h3 p) (fun h => absurd h hp0)
          (by rw [h2]; simp [hpT])
  · rcases hspot r hr with h | rfl
    · exact hsol r (g.closed r h)
    · exact hsol _ hs
  · rcases hspot r hr with h | rfl
    · exact g.wf r h
    · exact hw
  · rw [h3]; exact g.nwf
  · rw [h4]; exact g.pos

theorem Solid.elem {D : Sections} {T : List Key} (hs : D.Solid T) {c n : Nat} (hn : D.count T = some n) (hc : c < n) : D.Solid (T ++ [.idx c]) := by
  constructor
  · intro a j q e
    rcases List.eq_nil_or_concat q with rfl | ⟨q', x, rfl⟩
    · obtain ⟨h1, h2⟩ := List.append_inj' (show T ++ [Key.idx c] = a ++ [.str j] from e) rfl
      simp at h2
    · have h1 : T ++ [Key.idx c] = (a ++ .str j :: q') ++ [x] := by rw [e]; simp
      obtain ⟨h1, h2⟩ := List.append_inj' h1 rfl
      exact hs.str a j q' h1
  · intro a j q e
    rcases List.eq_nil_or_concat q with rfl | ⟨q', x, rfl⟩
    · obtain ⟨h1, h2⟩ := List.append_inj' (show T ++ [Key.idx c] = a ++ [.idx j] from e) rfl
      simp at h2
      rw [← h1, ← h2]
      exact ⟨n, hn, hc⟩
    · have h1 : T ++ [Key.idx c] = (a ++ .idx j :: q') ++ [x] := by rw [e]; simp
      obtain ⟨h1, h2⟩ := List.append_inj' h1 rfl
      exact hs.idx a j q' h1

/-- One more element of an array of tables. -/
theorem Good.elem {D D' : Sections} {K K' : List Key → Option HashValue} {h : Heap} (g : D.Good K h) {T : List Key} (hs : D.Solid T) (hT : T ≠ []) (hw : PathWf T)
    (hd : D.Down T) (nv : D.valueAt T = none) (nt : ¬ D.isTable T) (h1 : D'.vals = D.vals) (h2 : D'.heads = D.heads) (h3 : D'.names = D.names)
    (h4 : D'.arrs = (T, (D.count T).getD 0 + 1) :: D.arrs) (h5 : D'.stray = D.stray)
    (hK : ∀ q, PathWf q → q ≠ T → q ≠ T ++ [.idx ((D.count T).getD 0)] → K' q = K q) (hKT : K' T = some ⟨none, .count ((D.count T).getD 0 + 1)⟩)
    (hKE : K' (T ++ [.idx ((D.count T).getD 0)]) = some ⟨none, .keys []⟩) :
    D'.Good K' h ∧ (∀ Y, D'.Down Y) ∧ D'.isTable (T ++ [.idx ((D.count T).getD 0)]) ∧ D'.Solid (T ++ [.idx ((D.count T).getD 0)]) := by
  generalize hc : (D.count T).getD 0 = c at *
  have hcount := fun q => count_cons h4 q
  have htab : ∀ q, D'.isTable q ↔ D.isTable q ∨ q = T ++ [.idx c] := by
    intro q
    unfold isTable
    rw [h2, h4, h3]
    simp only [List.mem_cons]
    constructor
    · rintro (h | h | ⟨e, rfl | he, h⟩ | h)
      · exact .inl (.inl h)
      · exact .inl (.inr (.inl h))
      · exact .inr h
      · exact .inl (.inr (.inr (.inl ⟨e, he, h⟩)))
      · exact .inl (.inr (.inr (.inr h)))
    · rintro ((h | h | ⟨e, he, h⟩ | h) | h)
      · exact .inl h
      · exact .inr (.inl h)
      · exact .inr (.inr (.inl ⟨e, .inr he, h⟩))
      · exact .inr (.inr (.inr h))
      · exact .inr (.inr (.inl ⟨_, .inl rfl, h⟩))
  have hTE : T ≠ T ++ [.idx c] := by simp
  have hsol : ∀ r, D.Solid r → D'.Solid r := fun r hr => hr.mono (fun e he => by rw [h3]; exact he) (fun a n hn => by
    rw [hcount]
    split
    next e => subst e; rw [hn] at hc; simp at hc; exact ⟨_, rfl, by omega⟩
    · exact ⟨n, hn, Nat.le_refl _⟩)
  have hspot : ∀ r, D'.Spot r → D.Spot r ∨ r = T := by
    unfold Spot
    rw [h1, h2, h3, h4]
    simp only [List.mem_cons]
    rintro r (h | h | ⟨e, rfl | he, h⟩ | h)
    · exact .inl (.inl h)
    · exact .inl (.inr (.inl h))
    · exact .inr h.symm
    · exact .inl (.inr (.inr (.inl ⟨e, he, h⟩)))
    · exact .inl (.inr (.inr (.inr h)))
  -- nothing is known of the new element
  have hnoE : ∀ r, D.Spot r → r ≠ T ++ [.idx c] := by
    rintro r hr rfl
    obtain ⟨n, e1, e2⟩ := (g.closed _ hr).idx T c [] rfl
    rw [e1] at hc
    simp at hc
    omega
  have hE' : D'.isTable (T ++ [.idx c]) := (htab _).mpr (.inr rfl)
  refine ⟨⟨fun p hp => ?_, fun r hr => ?_, fun r hr => ?_, ?_, ?_⟩, ?_, hE', (hsol T hs).elem (n := c + 1) (by rw [hcount, if_pos rfl]) (by omega)⟩
  · by_cases hpT : p = T
    · subst hpT
      refine ⟨fun t ht => ?_, fun n hn => ?_, fun ht => ?_, fun _ h _ => ?_⟩
      · rw [valueAt_congr h1, nv] at ht; simp at ht
      · rw [hcount, if_pos rfl] at hn; simp at hn; rw [← hn]; exact hKT
      · rcases (htab _).mp ht with h | h
        · exact absurd h nt
        · exact absurd h hTE
      · rw [hcount, if_pos rfl] at h; simp at h
    · by_cases hpE : p = T ++ [.idx c]
      · subst hpE
        refine ⟨fun t ht => ?_, fun n hn => ?_, fun _ => ?_, fun _ _ h => absurd hE' h⟩
        · rw [valueAt_congr h1] at ht
          have : D.valueAt (T ++ [.idx c]) = none := by
            rw [valueAt_none]
            intro e he hpre
            rcases List.prefix_concat_iff.mp hpre with h | h
            · exact absurd h (hnoE _ (.inl ⟨e, he, rfl⟩))
            · exact absurd h (g.noVal hs nv e he)
          rw [this] at ht; simp at ht
        · rw [hcount, if_neg hTE] at hn
          exact absurd rfl (hnoE _ (.inr (.inr (.inl ⟨_, count_mem hn, rfl⟩))))
        · refine ⟨none, [], hKE, ?_, fun hh => ?_, fun _ => rfl⟩
          · unfold Lists
            rw [if_neg (by simp), namesOf_congr h3]
            exact (namesOf_nil fun x hx => hnoE _ (.inr (.inr (.inr ⟨_, hx, rfl⟩))) rfl).symm
          · rw [h2] at hh
            exact absurd rfl (hnoE _ (.inr (.inl hh)))
      · have := (g.slot p hp).congr (D' := D') [] (hK p hp hpT hpE) (valueAt_congr h1 p) (by rw [hcount, if_neg (Ne.symm hpT)]) (by rw [htab]; simp [hpE]) (namesOf_congr h3 p) (fun _ => h5)
          (by rw [h2])
        rwa [List.append_nil] at this
  · rcases hspot r hr with h | rfl
    · exact hsol r (g.closed r h)
    · exact hsol _ hs
  · rcases hspot r hr with h | rfl
    · exact g.wf r h
    · exact hw
  · rw [h3]; exact g.nwf
  · rw [h4]
    intro e he
    simp only [List.mem_cons] at he
    rcases he with rfl | he
    · simp
    · exact g.pos e he
  · intro Y p k hk _
    rw [h3] at hk
    rw [valueAt_congr h1, hcount, htab]
    by_cases e : p ++ [.str k] = T
    · rw [if_pos e.symm]; simp
    · rw [if_neg (Ne.symm e)]
      rcases hd p k hk e with h | h | h
      · exact .inl h
      · exact .inr (.inl h)
      · exact .inr (.inr (.inl h))

end Sections
end Tomllib
