import Verif.Lemmas.Inv
/-!
# The document tree: which lines it stands for, how it prints, and how it changes with a cell
-/

namespace Tomllib

/-- A tree node stands for a line; the last argument lists the cells of its value. -/
def ET.Rep (h : Heap) : ET → Expression → List Addr → Prop
  | .kv w1 k s v w2 c, e, fp => ∃ a, e = ⟨⟨w1, w2⟩, some ⟨k, s, a⟩, none, c⟩ ∧ v.Rep h a fp
  | .blank w, e, fp => e = ⟨⟨w, []⟩, none, none, none⟩ ∧ fp = []
  | .comment w c, e, fp => e = ⟨⟨w, []⟩, none, none, some c⟩ ∧ fp = []
  | .table w1 t w2 c, e, fp => e = ⟨⟨w1, w2⟩, none, some t, c⟩ ∧ fp = []

/-- The tree nodes stand for the lines. -/
def LinesRep (h : Heap) : List (Str × ET) → List NLExpression → List Addr → Prop
  | [], ns, fp => ns = [] ∧ fp = []
  | (nl, e) :: es, ns, fp => ∃ x ns' f1 f2, ns = ⟨nl, x⟩ :: ns' ∧ e.Rep h x f1 ∧ LinesRep h es ns' f2 ∧ fp = f1 ++ f2

theorem ET.Rep.congr {h h' : Heap} {e : ET} {x : Expression} {f : List Addr} (hr : e.Rep h x f) (he : ∀ a ∈ f, h'[a]? = h[a]?) :
    e.Rep h' x f := by
  cases e with
  | kv w1 k s v w2 c =>
    obtain ⟨a, rfl, h1⟩ := hr
    exact ⟨a, rfl, h1.congr he⟩
  | blank => exact hr
  | comment => exact hr
  | table => exact hr

theorem LinesRep.congr {h h' : Heap} : ∀ {ls : List (Str × ET)} {ns : List NLExpression} {f : List Addr}, LinesRep h ls ns f →
    (∀ a ∈ f, h'[a]? = h[a]?) → LinesRep h' ls ns f
  | [], _, _, hr, _ => hr
  | (nl, e) :: es, ns, f, hr, he => by
    obtain ⟨x, ns', f1, f2, rfl, h1, h2, rfl⟩ := hr
    exact ⟨x, ns', f1, f2, rfl, h1.congr (fun a ha => he a (by simp [ha])), h2.congr (fun a ha => he a (by simp [ha])), rfl⟩

theorem ET.Rep.bound {h : Heap} {e : ET} {x : Expression} {f : List Addr} (hr : e.Rep h x f) :
    ∀ a ∈ f, a < h.length ∧ h[a]? ≠ some .table := by
  cases e with
  | kv w1 k s v w2 c =>
    obtain ⟨a, rfl, h1⟩ := hr
    exact h1.bound
  | blank => rw [hr.2]; simp
  | comment => rw [hr.2]; simp
  | table => rw [hr.2]; simp

theorem LinesRep.bound {h : Heap} : ∀ {ls : List (Str × ET)} {ns : List NLExpression} {f : List Addr}, LinesRep h ls ns f →
    ∀ a ∈ f, a < h.length ∧ h[a]? ≠ some .table
  | [], _, _, hr => by rw [hr.2]; simp
  | (nl, e) :: es, ns, f, hr => by
    obtain ⟨x, ns', f1, f2, rfl, h1, h2, rfl⟩ := hr
    intro a ha
    rw [List.mem_append] at ha
    rcases ha with ha | ha
    · exact h1.bound a ha
    · exact h2.bound a ha

theorem LinesRep.append {h : Heap} {ls : List (Str × ET)} {ns : List NLExpression} {f : List Addr} (hr : LinesRep h ls ns f) (l : Heap) :
    LinesRep (h ++ l) ls ns f :=
  hr.congr fun a ha => List.getElem?_append_left (hr.bound a ha).1

/-! ## Printing -/

theorem VT.Rep.depth {h : Heap} {rank : Addr → Nat} (hk : Ranked h rank) {t : VT} {a : Addr} {f : List Addr} (hr : t.Rep h a f) :
    t.depth ≤ h.length := by
  have hb := hr.bound a hr.kids.1
  obtain ⟨t', f', h1, h2⟩ := hk.tree hb.1 hb.2
  obtain ⟨rfl, _⟩ := hr.unique h1
  exact h2

theorem VT.Rep.render {h : Heap} {rank : Addr → Nat} (hk : Ranked h rank) {t : VT} {a : Addr} {f : List Addr} (hr : t.Rep h a f) :
    render h a = textOr t.hasEmptyTable t.text :=
  t.render_rep h a f _ hr (by have := hr.depth hk; omega)

theorem VT.Rep.toVal {h : Heap} {rank : Addr → Nat} (hk : Ranked h rank) {t : VT} {a : Addr} {f : List Addr} (hr : t.Rep h a f) :
    toVal h a = .ok t.value :=
  t.toVal_rep h a f _ hr (by have := hr.depth hk; omega)

theorem ET.Rep.render {h : Heap} {rank : Addr → Nat} (hk : Ranked h rank) {e : ET} {x : Expression} {f : List Addr} (hr : e.Rep h x f) :
    renderExpr h x = textOr e.hasEmptyTable e.text := by
  cases e with
  | kv w1 k s v w2 c =>
    obtain ⟨a, rfl, h1⟩ := hr
    have := h1.render hk
    cases c <;> simp only [renderExpr, renderKV, Out.bind_eq, this, textOr_bind] <;>
      cases hv : v.hasEmptyTable <;> simp [ET.hasEmptyTable, hv, textOr, ET.text, optComment, Out.bind]
  | blank => rw [hr.1]; rfl
  | comment => rw [hr.1]; rfl
  | table w1 t w2 c => rw [hr.1]; cases c <;> simp [renderExpr, textOr, ET.hasEmptyTable, ET.text, optComment]

theorem LinesRep.render {h : Heap} {rank : Addr → Nat} (hk : Ranked h rank) : ∀ {ls : List (Str × ET)} {ns : List NLExpression} {f : List Addr},
    LinesRep h ls ns f → renderNLs h ns = textOr (hasEmptyTable ls) (linesText ls)
  | [], _, _, hr => by rw [hr.1]; rfl
  | (nl, e) :: es, ns, f, hr => by
    obtain ⟨x, ns', f1, f2, rfl, h1, h2, rfl⟩ := hr
    simp only [renderNLs, renderNL, Out.bind_eq, h1.render hk, LinesRep.render hk h2, textOr_bind]
    have : hasEmptyTable ((nl, e) :: es) = (e.hasEmptyTable || hasEmptyTable es) := by simp [hasEmptyTable]
    rw [this]
    cases e.hasEmptyTable <;> cases hasEmptyTable es <;> simp [textOr, Out.bind, linesText]

theorem LinesRep.nil_iff {h : Heap} {ls : List (Str × ET)} {ns : List NLExpression} {f : List Addr} (hr : LinesRep h ls ns f) :
    ns = [] ↔ ls = [] := by
  cases ls with
  | nil => simp [hr.1]
  | cons l ls =>
    obtain ⟨x, ns', f1, f2, rfl, _⟩ := hr
    simp

/-- Printing a tree that stands for lines. -/
theorem renderToml_rep {h : Heap} {rank : Addr → Nat} (hk : Ranked h rank) {ls : List (Str × ET)} {ns : List NLExpression} {f : List Addr}
    (hr : LinesRep h ls ns f) : renderToml h ⟨ns⟩ = textOr (ls.isEmpty || hasEmptyTable ls) (linesText ls) := by
  cases ls with
  | nil => rw [hr.1]; rfl
  | cons l ls =>
    have h1 := hr.render hk
    cases ns with
    | nil => have := hr.nil_iff; simp at this
    | cons n ns => simpa [renderToml] using h1

/-! ## Trees made by the parser -/

theorem stdTableAct_heap {t : Table} {st st' : PState} {tt : TableType} (h : stdTableAct t st = .ok (st', tt)) :
    st'.heap = st.heap ∨ st'.heap = st.heap ++ [.table] := by
  simp only [stdTableAct, Out.bind_eq] at h
  split at h
  · simp at h
  · rw [Out.bind_ok] at h
    obtain ⟨⟨a, b, c⟩, _, h⟩ := h
    split at h
    · rw [Out.bind_ok] at h
      obtain ⟨_, _, h⟩ := h
      simp at h; rw [← h.1]; exact .inl rfl
    · rw [Out.bind_ok] at h
      obtain ⟨_, _, h⟩ := h
      rw [Out.bind_ok] at h
      obtain ⟨_, _, h⟩ := h
      rw [Out.bind_ok] at h
      obtain ⟨_, _, h⟩ := h
      simp at h; rw [← h.1]; exact .inr rfl

theorem arrayTableAct_heap {t : Table} {st st' : PState} {tt : TableType} (h : arrayTableAct t st = .ok (st', tt)) :
    st'.heap = st.heap := by
  simp only [arrayTableAct, Out.bind_eq] at h
  split at h
  · simp at h
  · rw [Out.bind_ok] at h
    obtain ⟨_, _, h⟩ := h
    rw [Out.bind_ok] at h
    obtain ⟨_, _, h⟩ := h
    split at h
    · simp at h; rw [← h.1]
    · simp at h; rw [← h.1]

theorem TableType.eff_heap {t : TableType} {st st' : PState} (h : t.eff st = .ok st') :
    st'.heap = st.heap ∨ st'.heap = st.heap ++ [.table] := by
  cases t with
  | std t =>
    rw [TableType.eff, Out.bind_ok] at h
    obtain ⟨⟨s, tt⟩, h1, h⟩ := h
    simp at h; subst h
    exact stdTableAct_heap (st := st.pushKs _) h1
  | arr t =>
    rw [TableType.eff, Out.bind_ok] at h
    obtain ⟨⟨s, tt⟩, h1, h⟩ := h
    simp at h; subst h
    exact .inl (arrayTableAct_heap (st := st.pushKs _) h1)

/-- What a run adds to the heap for a line. -/
theorem ET.eff_rep {e : ET} {st st' : PState} (h : e.eff st = .ok st') :
    ∃ l fp, st'.heap = st.heap ++ l ∧ e.Rep st'.heap (e.expr st.heap.length) fp ∧ fp.Nodup ∧ (∀ x : Nat, x ∈ fp → st.heap.length ≤ x) ∧
      ∀ x : Nat, st.heap.length ≤ x → x < st'.heap.length → x ∈ fp ∨ st'.heap[x]? = some .table := by
  cases e with
  | blank => simp [ET.eff] at h; subst h; exact ⟨[], [], by simp, ⟨rfl, rfl⟩, by simp, by simp, fun x _ _ => by omega⟩
  | comment => simp [ET.eff] at h; subst h; exact ⟨[], [], by simp, ⟨rfl, rfl⟩, by simp, by simp, fun x _ _ => by omega⟩
  | kv w1 k s v w2 c =>
    rw [ET.eff, Out.bind_ok] at h
    obtain ⟨st1, h1, h⟩ := h
    have e1 := VT.eff_heap _ _ _ h1
    have e2 := keyvalAct_heap h
    obtain ⟨fp, r1, r2, r3⟩ := v.rep_cells st.heap []
    have e3 : st'.heap = st.heap ++ v.cells st.heap.length ++ [] := by rw [e2, e1]; simp [PState.pushK]
    refine ⟨v.cells st.heap.length, fp, by simpa using e3, ⟨_, rfl, ?_⟩, r2, fun x hx => ((r3 x).mp hx).1, ?_⟩
    · rw [e3]; exact r1
    · intro x h1 h2
      rw [e3] at h2
      simp [VT.cells_length] at h2
      exact .inl ((r3 x).mpr ⟨h1, h2⟩)
  | table w1 t w2 c =>
    rcases TableType.eff_heap h with e | e
    · exact ⟨[], [], by simp [e], ⟨rfl, rfl⟩, by simp, by simp, fun x _ h => by rw [e] at h; omega⟩
    · refine ⟨[.table], [], e, ⟨rfl, rfl⟩, by simp, by simp, fun x h1 h => .inr ?_⟩
      rw [e] at h ⊢
      simp at h
      have : x = st.heap.length := by omega
      subst this
      simp

theorem linesEff_rep : ∀ {ls : List (Str × ET)} {st st' : PState} {ns : List NLExpression}, linesEff ls st = .ok (st', ns) →
    ∃ l fp, st'.heap = st.heap ++ l ∧ LinesRep st'.heap ls ns fp ∧ fp.Nodup ∧ (∀ x : Nat, x ∈ fp → st.heap.length ≤ x) ∧
      ∀ x : Nat, st.heap.length ≤ x → x < st'.heap.length → x ∈ fp ∨ st'.heap[x]? = some .table
  | [], st, st', ns, h => by
    simp [linesEff] at h
    obtain ⟨rfl, rfl⟩ := h
    exact ⟨[], [], by simp, ⟨rfl, rfl⟩, by simp, by simp, fun x _ _ => by omega⟩
  | (nl, e) :: es, st, st', ns, h => by
    rw [linesEff, Out.bind_ok] at h
    obtain ⟨st1, h1, h⟩ := h
    rw [Out.bind_ok] at h
    obtain ⟨⟨s, n⟩, h2, h⟩ := h
    simp at h
    obtain ⟨rfl, rfl⟩ := h
    obtain ⟨l1, f1, a1, a2, a3, a4, a5⟩ := ET.eff_rep h1
    obtain ⟨l2, f2, b1, b2, b3, b4, b5⟩ := linesEff_rep h2
    have hlen : (st.lines (nlCount nl)).heap = st.heap := rfl
    rw [hlen] at a1 a2 a4 a5
    have a6 := a2.bound
    refine ⟨l1 ++ l2, f1 ++ f2, by rw [b1, a1]; simp, ⟨_, _, f1, f2, rfl, ?_, b2, rfl⟩, ?_, ?_, ?_⟩
    · exact a2.congr fun x hx => by rw [b1]; exact List.getElem?_append_left (a6 x hx).1
    · rw [List.nodup_append]
      refine ⟨a3, b3, fun a ha b hb => ?_⟩
      have h5 : (a : Nat) < st1.heap.length := (a6 a ha).1
      have h6 : st1.heap.length ≤ (b : Nat) := b4 b hb
      exact Nat.ne_of_lt (Nat.lt_of_lt_of_le h5 h6)
    · intro x hx
      rw [List.mem_append] at hx
      rcases hx with hx | hx
      · exact a4 x hx
      · have := b4 x hx
        rw [a1] at this; simp at this; omega
    · intro x hx hx'
      by_cases hc : x < st1.heap.length
      · rcases a5 x hx hc with hm | hm
        · exact .inl (by simp [hm])
        · right; rw [b1, List.getElem?_append_left hc]; exact hm
      · rcases b5 x (by omega) hx' with hm | hm
        · exact .inl (by simp [hm])
        · exact .inr hm

theorem PV.eff_heap : ∀ {t : PV} {st st' : PState}, t.eff st = .ok st' → ∃ l, st'.heap = st.heap ++ l
  | .nothing, st, st', h => by simp [PV.eff] at h; subst h; exact ⟨[], by simp⟩
  | .val t, st, st', h => ⟨_, VT.eff_heap _ _ _ h⟩
  | .arr _ es last, st, st', h => by
    rw [PV.eff, Out.bind_ok] at h
    obtain ⟨st1, h1, h⟩ := h
    rw [Out.bind_ok] at h
    obtain ⟨st2, h2, h⟩ := h
    simp at h; subst h
    obtain ⟨l, hl⟩ := PV.eff_heap h2
    exact ⟨es.cells st.heap.length ++ l, by simp [PState.closeArr, hl, Elems.eff_heap _ _ _ h1, PState.openArr]⟩
  | .itab _ kvs, st, st', h => ⟨_, Pairs.eff_heap _ _ _ h⟩
  | .itabK _ kvs k, st, st', h => by
    rw [PV.eff, Out.bind_ok] at h
    obtain ⟨st1, h1, h⟩ := h
    simp at h; subst h
    exact ⟨_, (Pairs.eff_heap _ _ _ h1 :)⟩
  | .itabKV _ kvs k _ last, st, st', h => by
    rw [PV.eff, Out.bind_ok] at h
    obtain ⟨st1, h1, h⟩ := h
    obtain ⟨l, hl⟩ := PV.eff_heap h
    exact ⟨kvs.cells st.heap.length ++ l, by rw [hl]; simp [PState.pushK, Pairs.eff_heap _ _ _ h1]⟩

theorem PX.eff_heap {t : PX} {st st' : PState} (h : t.eff st = .ok st') : ∃ l, st'.heap = st.heap ++ l := by
  cases t with
  | nothing => simp [PX.eff] at h; subst h; exact ⟨[], by simp⟩
  | header => simp [PX.eff] at h; subst h; exact ⟨[], by simp [PState.pushKs]⟩
  | key => simp [PX.eff] at h; subst h; exact ⟨[], by simp [PState.pushK]⟩
  | kv k s last => exact PV.eff_heap (st := st.pushK k) h
  | pair k s v =>
    rw [PX.eff, Out.bind_ok] at h
    obtain ⟨st1, h1, h⟩ := h
    exact ⟨v.cells st.heap.length, by rw [keyvalAct_heap h, VT.eff_heap _ _ _ h1]; rfl⟩
  | table t =>
    rcases TableType.eff_heap h with e | e
    · exact ⟨[], by simp [e]⟩
    · exact ⟨_, e⟩

/-! ## One cell of a tree -/

/-- A tree with a hole: replacing the subtree at the hole changes the text and the cells there only. -/
structure Focus (T A : Type) (rep : Heap → T → A → List Addr → Prop) (text : T → Str) (het : T → Bool) (wf good : T → Prop)
    (h : Heap) (t : T) (a : A) (fp : List Addr) (b : Addr) where
  sub : VT
  fb : List Addr
  f1 : List Addr
  f2 : List Addr
  plug : VT → T
  pre : Str
  post : Str
  emp : Bool
  fp_eq : fp = f1 ++ fb ++ f2
  sub_rep : sub.Rep h b fb
  plug_sub : plug sub = t
  text_eq : ∀ t', text (plug t') = pre ++ t'.text ++ post
  emp_eq : ∀ t', het (plug t') = (emp || t'.hasEmptyTable)
  wf_eq : ∀ t', wf t → t'.wf → wf (plug t')
  good_eq : ∀ t', good (plug t')
  rep_eq : ∀ h' t' fb', t'.Rep h' b fb' → (∀ x ∈ f1 ++ f2, h'[x]? = h[x]?) → rep h' (plug t') a (f1 ++ fb' ++ f2)

abbrev VT.Focus := Tomllib.Focus VT Addr VT.Rep VT.text VT.hasEmptyTable VT.wf (fun _ => True)
abbrev Elems.Focus := Tomllib.Focus Elems (List ArrayValue) Elems.Rep Elems.text Elems.hasEmptyTable Elems.wf (fun _ => True)
abbrev Pairs.Focus := Tomllib.Focus Pairs (List TableKeyVal) Pairs.Rep Pairs.text Pairs.hasEmptyTable Pairs.wf (· ≠ .nil)

def VT.Focus.here {h : Heap} {t : VT} {a : Addr} {fp : List Addr} (hr : t.Rep h a fp) : VT.Focus h t a fp a :=
  ⟨t, fp, [], [], id, [], [], false, by simp, hr, rfl, by simp, by simp, fun _ _ h => h, fun _ => trivial, fun h' t' fb' hr' _ => by simpa using hr'⟩

mutual
theorem VT.Rep.focus {h : Heap} : ∀ {t : VT} {a : Addr} {fp : List Addr} {b : Addr}, t.Rep h a fp → b ∈ fp → Nonempty (VT.Focus h t a fp b)
  | .leaf s, a, fp, b, hr, hb => by
    have h1 := hr.2
    subst h1
    simp at hb; subst hb
    exact ⟨VT.Focus.here hr⟩
  | .arr es c1 c2, a, fp, b, hr, hb => by
    by_cases hab : b = a
    · subst hab; exact ⟨VT.Focus.here hr⟩
    · obtain ⟨avs, g, e1, r1, rfl⟩ := hr
      simp [hab] at hb
      obtain ⟨F⟩ := Elems.Rep.focus r1 hb
      refine ⟨⟨F.sub, F.fb, a :: F.f1, F.f2, fun t' => .arr (F.plug t') c1 c2, lit% "[" ++ gapText c1 ++ F.pre, F.post ++ gapText c2 ++ lit% "]",
        F.emp, by simp [F.fp_eq], F.sub_rep, by simp [F.plug_sub], ?_, ?_, ?_, ?_, ?_⟩⟩
      · intro t'; simp [VT.text, F.text_eq]
      · intro t'; simp [VT.hasEmptyTable, F.emp_eq]
      · intro t' hw hw'; exact ⟨hw.1, F.wf_eq t' hw.2.1 hw', hw.2.2⟩
      · intro _; trivial
      · intro h' t' fb' hr' hx
        exact ⟨avs, F.f1 ++ fb' ++ F.f2, by rw [hx a (by simp), e1], F.rep_eq h' t' fb' hr' (fun x hx' => hx x (by grind)), by simp⟩
  | .itab es ws, a, fp, b, hr, hb => by
    by_cases hab : b = a
    · subst hab; exact ⟨VT.Focus.here hr⟩
    · obtain ⟨avs, g, e1, r1, rfl⟩ := hr
      simp [hab] at hb
      obtain ⟨F⟩ := Pairs.Rep.focus r1 hb
      have hne : ∀ t', F.plug t' ≠ .nil := F.good_eq
      refine ⟨⟨F.sub, F.fb, a :: F.f1, F.f2, fun t' => .itab (F.plug t') ws, lit% "{" ++ ws.ws1 ++ F.pre, F.post ++ ws.ws2 ++ lit% "}",
        F.emp, by simp [F.fp_eq], F.sub_rep, by simp [F.plug_sub], ?_, ?_, ?_, ?_, ?_⟩⟩
      · intro t'; simp [VT.text, F.text_eq]
      · intro t'
        rw [← F.emp_eq]
        have := hne t'
        cases hp : F.plug t' with
        | nil => exact absurd hp this
        | cons => rfl
      · intro t' hw hw'; exact ⟨hw.1, F.wf_eq t' hw.2 hw'⟩
      · intro _; trivial
      · intro h' t' fb' hr' hx
        exact ⟨avs, F.f1 ++ fb' ++ F.f2, by rw [hx a (by simp), e1], F.rep_eq h' t' fb' hr' (fun x hx' => hx x (by grind)), by simp⟩
theorem Elems.Rep.focus {h : Heap} : ∀ {t : Elems} {a : List ArrayValue} {fp : List Addr} {b : Addr}, t.Rep h a fp → b ∈ fp →
    Nonempty (Elems.Focus h t a fp b)
  | .nil, a, fp, b, hr, hb => by rw [hr.2] at hb; simp at hb
  | .cons v sep cn r, a, fp, b, hr, hb => by
    obtain ⟨c, avs, f1, f2, e1, r1, s1, rfl⟩ := hr
    by_cases hc : b ∈ f1
    · obtain ⟨F⟩ := VT.Rep.focus r1 hc
      refine ⟨⟨F.sub, F.fb, F.f1, F.f2 ++ f2, fun t' => .cons (F.plug t') sep cn r, F.pre, F.post ++ commaText sep ++ gapText cn ++ r.text,
        F.emp || r.hasEmptyTable, by simp [F.fp_eq], F.sub_rep, by simp [F.plug_sub], ?_, ?_, ?_, ?_, ?_⟩⟩
      · intro t'; simp [Elems.text, F.text_eq]
      · intro t'; simp [Elems.hasEmptyTable, F.emp_eq, Bool.or_assoc, Bool.or_comm, Bool.or_left_comm]
      · intro t' hw hw'; exact ⟨F.wf_eq t' hw.1 hw', hw.2⟩
      · intro _; trivial
      · intro h' t' fb' hr' hx
        refine ⟨c, avs, F.f1 ++ fb' ++ F.f2, f2, e1, F.rep_eq h' t' fb' hr' (fun x hx' => hx x (by grind)),
          s1.congr (fun x hx' => hx x (by simp [hx'])), by simp⟩
    · have hb2 : b ∈ f2 := by simp [hc] at hb; exact hb
      obtain ⟨F⟩ := Elems.Rep.focus s1 hb2
      refine ⟨⟨F.sub, F.fb, f1 ++ F.f1, F.f2, fun t' => .cons v sep cn (F.plug t'), v.text ++ commaText sep ++ gapText cn ++ F.pre, F.post,
        v.hasEmptyTable || F.emp, by simp [F.fp_eq], F.sub_rep, by simp [F.plug_sub], ?_, ?_, ?_, ?_, ?_⟩⟩
      · intro t'; simp [Elems.text, F.text_eq]
      · intro t'; simp [Elems.hasEmptyTable, F.emp_eq, Bool.or_assoc]
      · intro t' hw hw'; exact ⟨hw.1, hw.2.1, hw.2.2.1, F.wf_eq t' hw.2.2.2 hw'⟩
      · intro _; trivial
      · intro h' t' fb' hr' hx
        refine ⟨c, avs, f1, F.f1 ++ fb' ++ F.f2, e1, r1.congr (fun x hx' => hx x (by simp [hx'])),
          F.rep_eq h' t' fb' hr' (fun x hx' => hx x (by grind)), by simp⟩
theorem Pairs.Rep.focus {h : Heap} : ∀ {t : Pairs} {a : List TableKeyVal} {fp : List Addr} {b : Addr}, t.Rep h a fp → b ∈ fp →
    Nonempty (Pairs.Focus h t a fp b)
  | .nil, a, fp, b, hr, hb => by rw [hr.2] at hb; simp at hb
  | .cons k ws v sep cn r, a, fp, b, hr, hb => by
    obtain ⟨c, avs, f1, f2, e1, r1, s1, rfl⟩ := hr
    by_cases hc : b ∈ f1
    · obtain ⟨F⟩ := VT.Rep.focus r1 hc
      refine ⟨⟨F.sub, F.fb, F.f1, F.f2 ++ f2, fun t' => .cons k ws (F.plug t') sep cn r, k ++ ws.ws1 ++ lit% "=" ++ ws.ws2 ++ F.pre,
        F.post ++ commaText sep ++ gapText cn ++ r.text,
        F.emp || r.hasEmptyTable, by simp [F.fp_eq], F.sub_rep, by simp [F.plug_sub], ?_, ?_, ?_, ?_, ?_⟩⟩
      · intro t'; simp [Pairs.text, F.text_eq]
      · intro t'; simp [Pairs.hasEmptyTable, F.emp_eq, Bool.or_assoc, Bool.or_comm, Bool.or_left_comm]
      · intro t' hw hw'; exact ⟨hw.1, hw.2.1, F.wf_eq t' hw.2.2.1 hw', hw.2.2.2⟩
      · intro _; simp
      · intro h' t' fb' hr' hx
        refine ⟨c, avs, F.f1 ++ fb' ++ F.f2, f2, e1, F.rep_eq h' t' fb' hr' (fun x hx' => hx x (by grind)),
          s1.congr (fun x hx' => hx x (by simp [hx'])), by simp⟩
    · have hb2 : b ∈ f2 := by simp [hc] at hb; exact hb
      obtain ⟨F⟩ := Pairs.Rep.focus s1 hb2
      refine ⟨⟨F.sub, F.fb, f1 ++ F.f1, F.f2, fun t' => .cons k ws v sep cn (F.plug t'),
        k ++ ws.ws1 ++ lit% "=" ++ ws.ws2 ++ v.text ++ commaText sep ++ gapText cn ++ F.pre, F.post,
        v.hasEmptyTable || F.emp, by simp [F.fp_eq], F.sub_rep, by simp [F.plug_sub], ?_, ?_, ?_, ?_, ?_⟩⟩
      · intro t'; simp [Pairs.text, F.text_eq]
      · intro t'; simp [Pairs.hasEmptyTable, F.emp_eq, Bool.or_assoc]
      · intro t' hw hw'; exact ⟨hw.1, hw.2.1, hw.2.2.1, hw.2.2.2.1, hw.2.2.2.2.1, F.wf_eq t' hw.2.2.2.2.2 hw'⟩
      · intro _; simp
      · intro h' t' fb' hr' hx
        refine ⟨c, avs, f1, F.f1 ++ fb' ++ F.f2, e1, r1.congr (fun x hx' => hx x (by simp [hx'])),
          F.rep_eq h' t' fb' hr' (fun x hx' => hx x (by grind)), by simp⟩
end

/-- Lines with a hole at a cell. -/
abbrev LinesFocus (h : Heap) (ls : List (Str × ET)) (ns : List NLExpression) (fp : List Addr) (b : Addr) :=
  Focus (List (Str × ET)) (List NLExpression) LinesRep linesText hasEmptyTable (fun ls => ∀ l ∈ ls, l.2.wf)
    (fun ls' => ls'.map (·.1) = ls.map (·.1)) h ls ns fp b

theorem hasEmptyTable_cons (nl : Str) (e : ET) (es : List (Str × ET)) : hasEmptyTable ((nl, e) :: es) = (e.hasEmptyTable || hasEmptyTable es) := by
  simp [hasEmptyTable]

theorem LinesRep.focus {h : Heap} : ∀ {ls : List (Str × ET)} {ns : List NLExpression} {fp : List Addr} {b : Addr}, LinesRep h ls ns fp → b ∈ fp →
    Nonempty (LinesFocus h ls ns fp b)
  | [], a, fp, b, hr, hb => by rw [hr.2] at hb; simp at hb
  | (nl, e) :: es, ns, fp, b, hr, hb => by
    obtain ⟨x, ns', f1, f2, rfl, h1, h2, rfl⟩ := hr
    by_cases hc : b ∈ f1
    · cases e with
      | blank => rw [h1.2] at hc; simp at hc
      | comment => rw [h1.2] at hc; simp at hc
      | table => rw [h1.2] at hc; simp at hc
      | kv w1 k s v w2 c =>
        obtain ⟨a, rfl, h1⟩ := h1
        obtain ⟨F⟩ := VT.Rep.focus h1 hc
        refine ⟨⟨F.sub, F.fb, F.f1, F.f2 ++ f2, fun t' => (nl, .kv w1 k s (F.plug t') w2 c) :: es,
          nl ++ w1 ++ k ++ s.ws1 ++ lit% "=" ++ s.ws2 ++ F.pre, F.post ++ w2 ++ optComment c ++ linesText es,
          F.emp || hasEmptyTable es, by simp [F.fp_eq], F.sub_rep, by simp [F.plug_sub], ?_, ?_, ?_, ?_, ?_⟩⟩
        · intro t'; simp [linesText, ET.text, F.text_eq]
        · intro t'
          rw [hasEmptyTable_cons]
          simp [ET.hasEmptyTable, F.emp_eq, Bool.or_assoc, Bool.or_comm, Bool.or_left_comm]
        · intro t' hw hw' l hl
          rw [List.mem_cons] at hl
          rcases hl with rfl | hl
          · have := hw (nl, .kv w1 k s v w2 c) (by simp)
            obtain ⟨g1, g2, g3, g4, g5⟩ := this
            exact ⟨g1, g2, g3, F.wf_eq t' g4 hw', g5⟩
          · exact hw l (by simp [hl])
        · intro t'; simp
        · intro h' t' fb' hr' hx
          exact ⟨_, ns', F.f1 ++ fb' ++ F.f2, f2, rfl, ⟨a, rfl, F.rep_eq h' t' fb' hr' (fun x hx' => hx x (by grind))⟩,
            h2.congr (fun x hx' => hx x (by grind)), by simp⟩
    · have hb2 : b ∈ f2 := by simp [hc] at hb; exact hb
      obtain ⟨F⟩ := LinesRep.focus h2 hb2
      refine ⟨⟨F.sub, F.fb, f1 ++ F.f1, F.f2, fun t' => (nl, e) :: F.plug t', nl ++ e.text ++ F.pre, F.post,
        e.hasEmptyTable || F.emp, by simp [F.fp_eq], F.sub_rep, by simp [F.plug_sub], ?_, ?_, ?_, ?_, ?_⟩⟩
      · intro t'; simp [linesText, F.text_eq]
      · intro t'
        rw [hasEmptyTable_cons]
        simp [F.emp_eq, Bool.or_assoc]
      · intro t' hw hw' l hl
        rw [List.mem_cons] at hl
        rcases hl with rfl | hl
        · exact hw (nl, e) (by simp)
        · exact F.wf_eq t' (fun l hl => hw l (by simp [hl])) hw' l hl
      · intro t'; simp [F.good_eq t']
      · intro h' t' fb' hr' hx
        exact ⟨x, ns', f1, F.f1 ++ fb' ++ F.f2, rfl, h1.congr (fun x hx' => hx x (by grind)),
          F.rep_eq h' t' fb' hr' (fun x hx' => hx x (by grind)), by simp⟩

end Tomllib
