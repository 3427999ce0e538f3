import Verif.Spec.Results
import Verif.Lemmas.Map
/-!
# Invariants of the parser state that every action keeps
-/

namespace Tomllib

/-- The pairs of an `InvalidTable` error. -/
def ParseError.pairs : ParseError → SMap Value
  | .invalidTable _ _ _ m => m
  | _ => []

/-- The column is 0, and each pair has a key of its own. -/
def ParseError.tidy (e : ParseError) : Prop := e.col = 0 ∧ (e.pairs.map (·.1)).Nodup

theorem SMap.insert_keys {V : Type} : ∀ (m : SMap V) (k : Str) (v : V) {x : Str}, x ∈ (m.insert k v).map (·.1) → x = k ∨ x ∈ m.map (·.1)
  | [], k, v, x => by simp [SMap.insert]
  | (k', v') :: m, k, v, x => by
    simp only [SMap.insert]
    split
    · next e => subst e; simp only [List.map_cons, List.mem_cons]; exact fun h => h.imp id .inr
    · simp only [List.map_cons, List.mem_cons]
      rintro (h | h)
      · exact .inr (.inl h)
      · exact (SMap.insert_keys m k v h).imp id .inr

theorem SMap.insert_nodup {V : Type} : ∀ {m : SMap V} (k : Str) (v : V), (m.map (·.1)).Nodup → ((m.insert k v).map (·.1)).Nodup
  | [], k, v, _ => by simp [SMap.insert]
  | (k', v') :: m, k, v, h => by
    simp only [List.map_cons, List.nodup_cons] at h
    simp only [SMap.insert]
    split
    · next e => subst e; simp only [List.map_cons, List.nodup_cons]; exact h
    · next e =>
      simp only [List.map_cons, List.nodup_cons]
      exact ⟨fun hx => (SMap.insert_keys m k v hx).elim e h.1, SMap.insert_nodup k v h.2⟩

/-- The invariants. -/
structure Inv (st : PState) : Prop where
  rank : ∃ r, Ranked st.heap r
  map : MapInv st.map st.heap.length
  stack : st.lastArrayTables.length = st.lastArrayTablesIndex.length
  err : st.arrayError = true → st.errors ≠ []
  cols : ∀ e ∈ st.errors, e.tidy
  lines : ∀ e ∈ st.errors, 1 ≤ e.line ∧ e.line ≤ st.lineCount
  line1 : 1 ≤ st.lineCount

/-- A value has just been read: the last cell is its root and has no key yet. -/
structure Top (st : PState) : Prop where
  pos : st.heap ≠ []
  fresh : MapInv st.map (st.heap.length - 1)
  val : st.heap[st.heap.length - 1]? ≠ some .table

theorem Inv.congr {st st' : PState} (h : Inv st) (h1 : st'.heap = st.heap) (h2 : st'.map = st.map)
    (h3 : st'.lastArrayTables = st.lastArrayTables) (h4 : st'.lastArrayTablesIndex = st.lastArrayTablesIndex)
    (h5 : st'.arrayError = st.arrayError) (h6 : st'.errors = st.errors) (h7 : st'.lineCount = st.lineCount) : Inv st' := by
  refine ⟨?_, ?_, ?_, ?_, ?_, ?_, ?_⟩
  · rw [h1]; exact h.rank
  · rw [h1, h2]; exact h.map
  · rw [h3, h4]; exact h.stack
  · rw [h5, h6]; exact h.err
  · rw [h6]; exact h.cols
  · rw [h6, h7]; exact h.lines
  · rw [h7]; exact h.line1

theorem Inv.pushK {st : PState} (h : Inv st) (k : Str) : Inv (st.pushK k) := h.congr rfl rfl rfl rfl rfl rfl rfl
theorem Inv.pushKs {st : PState} (h : Inv st) (k : List Str) : Inv (st.pushKs k) := h.congr rfl rfl rfl rfl rfl rfl rfl
theorem Inv.openArr {st : PState} (h : Inv st) : Inv st.openArr := h.congr rfl rfl rfl rfl rfl rfl rfl
theorem Inv.closeArr {st : PState} (h : Inv st) : Inv st.closeArr := h.congr rfl rfl rfl rfl rfl rfl rfl
theorem Inv.linesN {st : PState} (h : Inv st) (n : Nat) : Inv (st.lines n) :=
  ⟨h.rank, h.map, h.stack, h.err, h.cols, fun e he => ⟨(h.lines e he).1, Nat.le_trans (h.lines e he).2 (Nat.le_add_right _ _)⟩,
   Nat.le_trans h.line1 (Nat.le_add_right _ _)⟩

theorem Ranked.snoc {h : Heap} {r : Addr → Nat} (hr : Ranked h r) {v : TVal} (hv : ∀ c : Nat, c ∈ v.kids → c < h.length ∧ h[c]? ≠ some .table) :
    Ranked (h ++ [v]) (fun x => if x = h.length then h.length else r x) := by
  intro a w hw
  have hcase : a < h.length ∨ a = h.length := by
    have := (List.getElem?_eq_some_iff.mp hw).1
    simp at this; omega
  rcases hcase with hl | rfl
  · rw [List.getElem?_append_left hl] at hw
    have := hr a w hw
    dsimp only
    rw [if_neg (show ¬ a = h.length by omega)]
    refine ⟨by simp; omega, fun c hc => ?_⟩
    have h2 := this.2 c hc
    rw [if_neg (show ¬ c = h.length by omega), List.getElem?_append_left h2.1]
    exact ⟨by simp; omega, h2.2.1, h2.2.2⟩
  · rw [List.getElem?_append_right (by omega)] at hw
    simp at hw; subst hw
    refine ⟨by simp, fun c hc => ?_⟩
    have h2 := hv c hc
    dsimp only
    rw [if_neg (show ¬ c = h.length by omega), List.getElem?_append_left h2.1]
    exact ⟨by simp; omega, by simpa using hr.lt h2.1, h2.2⟩

theorem Inv.cell {st : PState} (h : Inv st) {v : TVal} (hv : ∀ c : Nat, c ∈ v.kids → c < st.heap.length ∧ st.heap[c]? ≠ some .table)
    (ht : v ≠ .table) : Inv (st.cell v) ∧ Top (st.cell v) := by
  obtain ⟨r, hr⟩ := h.rank
  refine ⟨⟨⟨_, hr.snoc hv⟩, ?_, h.stack, h.err, h.cols, h.lines, h.line1⟩, ?_, ?_, ?_⟩
  · exact h.map.mono (by simp [PState.cell])
  · simp [PState.cell]
  · simpa [PState.cell] using h.map
  · simp [PState.cell, ht]

theorem Inv.tableCell {st : PState} (h : Inv st) : Inv (st.cell .table) := by
  obtain ⟨r, hr⟩ := h.rank
  exact ⟨⟨_, hr.snoc (v := .table) (by simp [TVal.kids])⟩, h.map.mono (by simp [PState.cell]), h.stack, h.err, h.cols, h.lines, h.line1⟩

theorem Inv.addErr {st : PState} (h : Inv st) (e : ParseError) (h1 : e.tidy) (h2 : e.line = st.lineCount) :
    Inv { st with errors := st.errors ++ [e] } := by
  refine ⟨h.rank, h.map, h.stack, fun _ => by simp, ?_, ?_, h.line1⟩
  · intro x hx
    simp at hx
    rcases hx with hx | rfl
    · exact h.cols x hx
    · exact h1
  · intro x hx
    simp at hx
    rcases hx with hx | rfl
    · exact h.lines x hx
    · rw [h2]; exact ⟨h.line1, Nat.le_refl _⟩

theorem Top.addErr {st : PState} (h : Top st) (e : ParseError) : Top { st with errors := st.errors ++ [e] } := ⟨h.pos, h.fresh, h.val⟩

/-- What a value leaves unchanged. -/
structure Frame (st st' : PState) : Prop where
  keychain : st'.keychain = st.keychain
  lastTable : st'.lastTable = st.lastTable
  tables : st'.lastArrayTables = st.lastArrayTables
  index : st'.lastArrayTablesIndex = st.lastArrayTablesIndex
  err : st'.arrayError = st.arrayError

theorem Frame.refl (st : PState) : Frame st st := ⟨rfl, rfl, rfl, rfl, rfl⟩
theorem Frame.trans {a b c : PState} (h : Frame a b) (h' : Frame b c) : Frame a c :=
  ⟨h'.1.trans h.1, h'.2.trans h.2, h'.3.trans h.3, h'.4.trans h.4, h'.5.trans h.5⟩

/-- What entering a value leaves unchanged, but for the top of the key chain. -/
structure Frame' (st st' : PState) : Prop where
  keychain : st'.keychain.dropLast = st.keychain.dropLast
  last : st.keychain.getLast? = none → st'.keychain.getLast? = none
  lastTable : st'.lastTable = st.lastTable
  tables : st'.lastArrayTables = st.lastArrayTables
  index : st'.lastArrayTablesIndex = st.lastArrayTablesIndex
  err : st'.arrayError = st.arrayError

theorem Frame'.trans {a b c : PState} (h : Frame' a b) (h' : Frame' b c) : Frame' a c :=
  ⟨h'.1.trans h.1, fun x => h'.2 (h.2 x), h'.3.trans h.3, h'.4.trans h.4, h'.5.trans h.5, h'.6.trans h.6⟩

theorem Frame'.refl (st : PState) : Frame' st st := ⟨rfl, id, rfl, rfl, rfl, rfl⟩
theorem Frame.weak {a b : PState} (h : Frame a b) : Frame' a b :=
  ⟨by rw [h.keychain], by rw [h.keychain]; exact id, h.lastTable, h.tables, h.index, h.err⟩

theorem insertKeyval_frame {st st' : PState} {a : Addr} (h : insertKeyval st a = .ok st') : Frame st st' := by
  simp only [insertKeyval, Out.bind_eq, Out.bind_ok] at h
  obtain ⟨⟨full, parent⟩, _, h⟩ := h
  split at h
  · rw [Out.bind_ok] at h
    obtain ⟨v, _, h⟩ := h
    simp at h; subst h; exact ⟨rfl, rfl, rfl, rfl, rfl⟩
  · split at h
    · simp at h
    · simp at h; subst h; exact ⟨rfl, rfl, rfl, rfl, rfl⟩

theorem checkMixed_frame {t : ArrayType} {st st' : PState} (h : checkMixed t st = .ok st') : Frame st st' := by
  unfold checkMixed at h
  split at h
  · simp at h; subst h; exact .refl _
  · split at h
    · simp at h; subst h; exact .refl _
    · split at h
      · simp at h
      · simp at h
      · dsimp only at h
        rcases Out.ite_ok h with rfl | rfl <;> exact ⟨rfl, rfl, rfl, rfl, rfl⟩

theorem arrayValueAct_frame {a : Addr} {st st' : PState} (h : arrayValueAct a st = .ok st') : Frame' st st' := by
  simp only [arrayValueAct, Out.bind_eq, Out.bind_ok] at h
  obtain ⟨v, _, t, _, st1, h1, st2, h2, h⟩ := h
  have e1 := checkMixed_frame h1
  have e2 := insertKeyval_frame h2
  have e3 : Frame st st2 := e1.trans ⟨e2.1, e2.2, e2.3, e2.4, e2.5⟩
  split at h
  · simp at h
  next k hk =>
    simp at h; subst h
    refine ⟨by simp [e3.keychain], ?_, e3.lastTable, e3.tables, e3.index, e3.err⟩
    intro hn
    rw [e3.keychain, hn] at hk
    simp at hk

theorem keyvalAct_frame {k : Str} {a : Addr} {st st' : PState} (h : keyvalAct k a st = .ok st') :
    st'.keychain = st.keychain.dropLast ∧ Frame { st with keychain := st.keychain.dropLast } st' := by
  simp only [keyvalAct, Out.bind_eq, Out.bind_ok] at h
  obtain ⟨st1, h1, h⟩ := h
  simp at h; subst h
  have key : Frame st st1 → st1.keychain.dropLast = st.keychain.dropLast ∧
      Frame { st with keychain := st.keychain.dropLast } { st1 with keychain := st1.keychain.dropLast } := fun f =>
    ⟨by rw [f.keychain], ⟨by simp [f.keychain], f.lastTable, f.tables, f.index, f.err⟩⟩
  apply key
  split at h1
  · split at h1
    · simp at h1
    · rw [Out.bind_ok] at h1
      obtain ⟨v, _, h1⟩ := h1
      simp at h1; subst h1; exact ⟨rfl, rfl, rfl, rfl, rfl⟩
    · simp at h1; subst h1; exact .refl _
  · exact insertKeyval_frame h1

theorem Scalar.eff_frame {s : Scalar} {st st' : PState} (h : s.eff st = .ok st') : Frame st st' := by
  unfold Scalar.eff at h
  split at h
  · split at h
    · simp at h; subst h; exact .refl _
    · rw [Out.bind_ok] at h
      obtain ⟨x, _, h⟩ := h
      simp at h; subst h; exact ⟨rfl, rfl, rfl, rfl, rfl⟩
  all_goals (simp at h; subst h; exact ⟨rfl, rfl, rfl, rfl, rfl⟩)

mutual
theorem VT.eff_frame : ∀ {t : VT} {st st' : PState}, t.eff st = .ok st' → Frame st st'
  | .leaf s, st, st', h => by
    rw [VT.eff, Out.bind_ok] at h
    obtain ⟨st1, h1, h⟩ := h
    simp at h; subst h
    have := Scalar.eff_frame h1
    exact ⟨this.1, this.2, this.3, this.4, this.5⟩
  | .arr es c1 c2, st, st', h => by
    rw [VT.eff, Out.bind_ok] at h
    obtain ⟨st1, h1, h⟩ := h
    simp at h; subst h
    have := Elems.eff_frame h1
    refine ⟨?_, this.3, this.4, this.5, this.6⟩
    have h1 := this.1
    simp [PState.openArr] at h1
    simp [PState.cell, PState.closeArr, h1]
  | .itab kvs ws, st, st', h => by
    rw [VT.eff, Out.bind_ok] at h
    obtain ⟨st1, h1, h⟩ := h
    simp at h; subst h
    have := Pairs.eff_frame h1
    exact ⟨this.1, this.2, this.3, this.4, this.5⟩
theorem Elems.eff_frame : ∀ {t : Elems} {st st' : PState}, t.eff st = .ok st' → Frame' st st'
  | .nil, st, st', h => by
    simp [Elems.eff] at h; subst h; exact .refl _
  | .cons v sep cn r, st, st', h => by
    rw [Elems.eff, Out.bind_ok] at h
    obtain ⟨st1, h1, h⟩ := h
    rw [Out.bind_ok] at h
    obtain ⟨st2, h2, h⟩ := h
    exact ((VT.eff_frame h1).weak.trans (arrayValueAct_frame h2)).trans (Elems.eff_frame h)
theorem Pairs.eff_frame : ∀ {t : Pairs} {st st' : PState}, t.eff st = .ok st' → Frame st st'
  | .nil, st, st', h => by
    simp [Pairs.eff] at h; subst h; exact .refl _
  | .cons k ws v sep cn r, st, st', h => by
    rw [Pairs.eff, Out.bind_ok] at h
    obtain ⟨st1, h1, h⟩ := h
    rw [Out.bind_ok] at h
    obtain ⟨st2, h2, h⟩ := h
    have e1 := VT.eff_frame h1
    have e2 := (keyvalAct_frame h2).2
    have e3 := Pairs.eff_frame h
    refine Frame.trans ⟨?_, ?_, ?_, ?_, ?_⟩ e3
    · have := e2.1; simp [e1.keychain, PState.pushK] at this; exact this
    · exact e2.2.trans e1.2
    · exact e2.3.trans e1.3
    · exact e2.4.trans e1.4
    · exact e2.5.trans e1.5
end

/-! ## Actions keep the invariants -/

/-- The predicate that results satisfy. -/
abbrev Keeps (x : Out PState) : Prop := x.All Inv parsePanic

theorem insertKeys_all {st : PState} (h : Inv st) : (insertKeys st).All (fun _ => True) parsePanic := by
  unfold insertKeys
  split
  · trivial
  · simp only [Out.bind_eq]
    exact (getFullKey_all _ _ _ _ _ (by simp [h.stack])).bind fun _ _ _ => trivial
  · simp only [Out.bind_eq]
    exact (getFullKey_all _ _ _ _ _ (by simp [h.stack])).bind fun _ _ _ => trivial

theorem Top.toVal {st : PState} (h : Inv st) (ht : Top st) : ∃ v, toVal st.heap (st.heap.length - 1) = .ok v := by
  obtain ⟨r, hr⟩ := h.rank
  have : 0 < st.heap.length := List.length_pos_iff.mpr ht.pos
  exact hr.toVal_ok (show (st.heap.length - 1 : Nat) < st.heap.length by omega) ht.val

theorem insertKeyval_all {st : PState} (h : Inv st) (ht : Top st) : Keeps (insertKeyval st (st.heap.length - 1)) := by
  have hpos : 0 < st.heap.length := List.length_pos_iff.mpr ht.pos
  simp only [insertKeyval, Out.bind_eq]
  refine (insertKeys_all h).bind fun ⟨full, parent⟩ _ _ => ?_
  have hm : ∀ c, KidsOk c → MapInv (st.map.insert full ⟨some (st.heap.length - 1), c⟩) st.heap.length := by
    intro c hc
    refine h.map.insert (fun a ha => ?_) hc
    simp at ha; subst ha
    refine ⟨by omega, fun k' hk' => ?_⟩
    have := ht.fresh.lt k' _ hk'
    omega
  dsimp only
  split
  · obtain ⟨v, hv⟩ := Top.toVal h ht
    rw [hv]
    exact h.addErr _ ⟨rfl, by simp [ParseError.pairs]⟩ rfl
  next r hne =>
    split
    · simp [Out.All, parsePanic]
    next last _ =>
      refine ⟨h.rank, ?_, h.stack, h.err, h.cols, h.lines, h.line1⟩
      apply updateParent_inv
      split
      next hv hg => exact hm _ (h.map.get hg)
      · split
        · exact hm (.keys []) (by simp [KidsOk])
        · exact hm (.count 0) trivial

theorem checkMixed_all {t : ArrayType} {st : PState} (h : Inv st) (ht : Top st) :
    (checkMixed t st).All (fun s => Inv s ∧ Top s) parsePanic := by
  unfold checkMixed
  split
  · exact ⟨h, ht⟩
  · split
    · exact ⟨h, ht⟩
    · have := getFullKey_all st.map st.heap st.lastArrayTables st.lastArrayTablesIndex st.keychain (by simp [h.stack])
      split
      next hx => rw [hx] at this; exact this
      next hx => rw [hx] at this; exact this
      next full parent hx =>
        dsimp only
        have key : ∀ b : Bool, (if b = true then Out.ok { st with errors := st.errors ++ [.mixedArray parent st.lineCount 0] }
            else Out.ok st).All (fun s => Inv s ∧ Top s) parsePanic := by
          intro b
          cases b
          · exact ⟨h, ht⟩
          · exact ⟨h.addErr _ ⟨rfl, by simp [ParseError.pairs]⟩ rfl, ht.addErr _⟩
        exact key _

theorem TVal.arrayType_ok {v : TVal} (h : v ≠ .table) : ∃ t, v.arrayType = .ok t := by
  cases v <;> simp [TVal.arrayType] at h ⊢

theorem arrayValueAct_all {st : PState} (h : Inv st) (ht : Top st) : Keeps (arrayValueAct (st.heap.length - 1) st) := by
  have hpos : 0 < st.heap.length := List.length_pos_iff.mpr ht.pos
  have hv : st.heap[st.heap.length - 1]? = some st.heap[st.heap.length - 1] := List.getElem?_eq_getElem (by omega)
  obtain ⟨t, htt⟩ := TVal.arrayType_ok (v := st.heap[st.heap.length - 1]) (by intro e; rw [e] at hv; exact ht.val hv)
  simp only [arrayValueAct, Out.bind_eq, hv, Out.bind, htt]
  refine Out.All.bind (checkMixed_all h ht) fun st1 ⟨i1, t1⟩ hc => ?_
  have e1 : st1.heap.length = st.heap.length := by rw [checkMixed_heap hc]
  have i2 : Inv { st1 with lastArrayType := st1.lastArrayType.dropLast ++ [t] } := i1.congr rfl rfl rfl rfl rfl rfl rfl
  have t2 : Top { st1 with lastArrayType := st1.lastArrayType.dropLast ++ [t] } := ⟨t1.1, t1.2, t1.3⟩
  have := insertKeyval_all i2 t2
  simp only [e1] at this
  refine Out.All.bind this fun st3 i3 _ => ?_
  split
  · simp [Out.All, parsePanic]
  · exact i3.congr rfl rfl rfl rfl rfl rfl rfl

theorem keyvalAct_all {k : Str} {st : PState} (h : Inv st) (ht : Top st) : Keeps (keyvalAct k (st.heap.length - 1) st) := by
  simp only [keyvalAct, Out.bind_eq]
  refine Out.All.bind (I := Inv) ?_ fun st1 i1 _ => i1.congr rfl rfl rfl rfl rfl rfl rfl
  split
  next he =>
    have hne := h.err he
    split
    next hn => simp at hn; exact absurd hn hne
    next key line col m hl =>
      obtain ⟨v, hv⟩ := Top.toVal h ht
      rw [hv]
      have hmem : ParseError.invalidTable key line col m ∈ st.errors := List.mem_of_getLast? hl
      refine ⟨h.rank, h.map, h.stack, fun _ => by simp, ?_, ?_, h.line1⟩
      · intro e hee
        simp at hee
        rcases hee with hee | rfl
        · exact h.cols e (List.dropLast_subset _ hee)
        · exact ⟨((h.cols _ hmem).1 :), SMap.insert_nodup _ _ ((h.cols _ hmem).2 :)⟩
      · intro e hee
        simp at hee
        rcases hee with hee | rfl
        · exact h.lines e (List.dropLast_subset _ hee)
        · exact (h.lines _ hmem :)
    · exact h
  · exact insertKeyval_all h ht

theorem Scalar.eff_all (s : Scalar) {st : PState} (h : Inv st) : Keeps (s.eff st) := by
  unfold Scalar.eff
  split
  · split
    · exact h
    · exact (getFullKey_all _ _ _ _ _ (by simp [h.stack])).bind fun _ _ _ => h.addErr _ ⟨rfl, by simp [ParseError.pairs]⟩ rfl
  · exact h.linesN _
  · exact h.linesN _
  · exact h

mutual
theorem VT.eff_all : ∀ (t : VT) {st : PState}, Inv st → (t.eff st).All (fun s => Inv s ∧ Top s) parsePanic
  | .leaf s, st, h => by
    rw [VT.eff]
    refine (s.eff_all h).bind fun st1 h1 _ => ?_
    exact h1.cell (by cases s <;> simp [Scalar.cell, TVal.kids]) Scalar.cell_ne_table
  | .arr es c1 c2, st, h => by
    rw [VT.eff]
    refine (es.eff_all h.openArr).bind fun st1 h1 he => ?_
    refine h1.closeArr.cell (fun c hc => ?_) (by simp)
    obtain ⟨fp, r1, _, _⟩ := es.rep_cells st.heap []
    have hh := Elems.eff_heap es _ _ he
    have := Elems.Rep.bound r1 c (Elems.Rep.kids r1 c (by simpa [TVal.kids] using hc))
    simp only [PState.closeArr, hh]
    simpa [PState.openArr] using this
  | .itab kvs ws, st, h => by
    rw [VT.eff]
    refine (kvs.eff_all h).bind fun st1 h1 he => ?_
    refine h1.cell (fun c hc => ?_) (by simp)
    obtain ⟨fp, r1, _, _⟩ := kvs.rep_cells st.heap []
    have hh := Pairs.eff_heap kvs _ _ he
    have := Pairs.Rep.bound r1 c (Pairs.Rep.kids r1 c (by simpa [TVal.kids] using hc))
    rw [hh]
    simpa using this
theorem Elems.eff_all : ∀ (t : Elems) {st : PState}, Inv st → Keeps (t.eff st)
  | .nil, st, h => by rw [Elems.eff]; exact h
  | .cons v sep cn r, st, h => by
    rw [Elems.eff]
    refine (v.eff_all h).bind fun st1 ⟨h1, t1⟩ _ => ?_
    refine (arrayValueAct_all h1 t1).bind fun st2 h2 _ => r.eff_all h2
theorem Pairs.eff_all : ∀ (t : Pairs) {st : PState}, Inv st → Keeps (t.eff st)
  | .nil, st, h => by rw [Pairs.eff]; exact h
  | .cons k ws v sep cn r, st, h => by
    rw [Pairs.eff]
    refine (v.eff_all (h.pushK k)).bind fun st1 ⟨h1, t1⟩ _ => ?_
    refine (keyvalAct_all h1 t1).bind fun st2 h2 _ => r.eff_all h2
end

theorem PV.eff_all : ∀ (t : PV) {st : PState}, Inv st → Keeps (t.eff st)
  | .nothing, st, h => h
  | .val t, st, h => (t.eff_all h).mono (fun _ h => h.1) (fun _ h => h)
  | .arr _ es last, st, h => by
    rw [PV.eff]
    refine (es.eff_all h.openArr).bind fun st1 h1 _ => ?_
    exact (last.eff_all h1).bind fun st2 h2 _ => h2.closeArr
  | .itab _ kvs, st, h => kvs.eff_all h
  | .itabK _ kvs k, st, h => by
    rw [PV.eff]; exact (kvs.eff_all h).bind fun st1 h1 _ => h1.pushK k
  | .itabKV _ kvs k _ last, st, h => by
    rw [PV.eff]; exact (kvs.eff_all h).bind fun st1 h1 _ => last.eff_all (h1.pushK k)

/-! ## Table headers -/

theorem keyHasChildrenWithValues_all (m : KMap) (h : Heap) (k : Str) :
    (keyHasChildrenWithValues m h k).All (fun _ => True) parsePanic := by
  unfold keyHasChildrenWithValues
  split
  · trivial
  · split
    · trivial
    · split
      · split
        · simp [Out.All, parsePanic]
        · trivial
      · trivial

theorem stdPop_length (t : TableType) {ts : List TableType} {is : List Nat} (h : ts.length = is.length) :
    (stdPop t ts is).1.length = (stdPop t ts is).2.length := by
  have key : ∀ (ts : List TableType) (is : List Nat), ts.length = is.length →
      (if sameTop t ts then (ts, is) else popLoop (fun top => t.isSubtableOf top) ts.length ts is).1.length =
      (if sameTop t ts then (ts, is) else popLoop (fun top => t.isSubtableOf top) ts.length ts is).2.length := by
    intro ts is h
    cases sameTop t ts
    · exact popLoop_length _ _ _ _ h
    · exact h
  unfold stdPop
  cases isTopStd ts || equalKeyLength t ts
  · exact key _ _ h
  · exact key _ _ (by simp [h])

theorem stdCheck_all (m : KMap) (h : Heap) (t : TableType) {ts : List TableType} {is : List Nat} (hl : ts.length = is.length) :
    (stdCheck m h t ts is).All (fun _ => True) parsePanic := by
  simp only [stdCheck, Out.bind_eq]
  split
  · trivial
  · refine (getArrayTableKey_all _ _ _ _ (by simp [hl])).bind fun ⟨valid, tk, pk⟩ _ _ => ?_
    refine Out.All.bind (I := fun _ => True) ?_ fun bad _ _ => trivial
    split
    · trivial
    · exact keyHasChildrenWithValues_all _ _ _

theorem stdEntry_inv {m : KMap} {n : Nat} (h : MapInv m n) (k : Str) : MapInv (stdEntry m n k) (n + 1) := by
  have hfresh : ∀ (c : Children), KidsOk c → MapInv (m.insert k ⟨some n, c⟩) (n + 1) := by
    intro c hc
    refine (h.mono (Nat.le_succ _)).insert (fun a ha => ?_) hc
    simp at ha; subst ha
    refine ⟨by omega, fun k' hk' => ?_⟩
    have := h.lt k' _ hk'
    omega
  unfold stdEntry
  split
  next hv hg => exact hfresh _ (h.get hg)
  · exact hfresh (.keys []) (by simp [KidsOk])

theorem stdParent_inv {m : KMap} {n : Nat} (h : MapInv m n) (pk nm : Str) : (stdParent m pk nm).All (MapInv · n) parsePanic := by
  unfold stdParent
  split
  next v ks hg => exact h.insertKids hg (insertUniq_nodup (h.get hg))
  · simp [Out.All, parsePanic]
  · exact h

theorem stdTableAct_all {t : Table} {st : PState} (h : Inv st) : (stdTableAct t st).All (fun x => Inv x.1) parsePanic := by
  simp only [stdTableAct, Out.bind_eq]
  split
  · simp [Out.All, parsePanic]
  · have hl := stdPop_length (.std t) h.stack
    generalize stdPop (.std t) st.lastArrayTables st.lastArrayTablesIndex = p at hl
    refine (stdCheck_all _ _ _ hl).bind fun ⟨error, tk, pk⟩ _ _ => ?_
    dsimp only
    split
    · refine (getArrayTableKey_all _ _ _ _ (by simp [hl])).bind fun ⟨valid, key, pk⟩ _ _ => ?_
      have := h.addErr (.invalidTable key st.lineCount 0 []) ⟨rfl, by simp [ParseError.pairs]⟩ rfl
      exact ⟨this.rank, this.map, hl, fun _ => by simp, this.cols, this.lines, this.line1⟩
    · refine (addImplicitTables_inv h.map _ _ (by omega)).bind fun m1 h1 _ => ?_
      refine (addToTableSet_inv h1 hl _).bind fun m2 h2 _ => ?_
      refine (stdParent_inv (stdEntry_inv h2 tk) _ _).bind fun m4 h4 _ => ?_
      have := h.tableCell
      exact ⟨this.rank, by simpa using h4, by simp [hl], by simp, h.cols, h.lines, h.line1⟩

/-- What placing an array-table header keeps. -/
abbrev PlaceOk (n : Nat) (x : KMap × List TableType × List Nat) : Prop := MapInv x.1 n ∧ x.2.1.length = x.2.2.length

theorem arrPush_all {m : KMap} {n : Nat} (hm : MapInv m n) (h : Heap) (t : TableType) {ts : List TableType} {is : List Nat}
    (hl : ts.length = is.length) : (arrPush m h t ts is).All (PlaceOk n) parsePanic := by
  simp only [arrPush, Out.bind_eq]
  exact (addImplicitTables_inv hm _ _ (by omega)).bind fun m1 h1 _ => ⟨h1, by simp [hl]⟩

theorem arrNext_all {m : KMap} {n : Nat} (hm : MapInv m n) {ts : List TableType} {is : List Nat}
    (hl : ts.length = is.length) : (arrNext m ts is).All (PlaceOk n) parsePanic := by
  simp only [arrNext, Out.bind_eq]
  exact (incrementArrayTableIndex_inv hm hl).bind fun ⟨m1, is1⟩ h1 _ => ⟨h1.1, by rw [hl]; exact h1.2.symm⟩

theorem arrAgain_all {m : KMap} {n : Nat} (hm : MapInv m n) (h : Heap) (t : TableType) {ts : List TableType} {is : List Nat}
    (hl : ts.length = is.length) : (arrAgain m h t ts is).All (PlaceOk n) parsePanic := by
  simp only [arrAgain, Out.bind_eq]
  refine (arrPush_all hm h t hl).bind fun ⟨m1, ts1, is1⟩ h1 _ => ?_
  obtain ⟨s, hs⟩ := getKeyParent_ok h1.2
  dsimp only at hs ⊢
  rw [hs]
  simp only [Out.bind]
  split
  · exact arrNext_all h1.1 h1.2
  · exact h1

theorem arrPlace_all {m : KMap} {n : Nat} (hm : MapInv m n) (h : Heap) (t : TableType) {ts : List TableType} {is : List Nat}
    (hl : ts.length = is.length) : (arrPlace m h t ts is).All (PlaceOk n) parsePanic := by
  unfold arrPlace
  split
  · exact arrPush_all hm h t hl
  · split
    · exact arrNext_all hm hl
    · split
      · exact arrPush_all hm h t hl
      · have hpl := popLoop_length (fun top => decide (t.keyStr = top.keyStr)) ts.length ts is hl
        dsimp only
        split
        · exact arrNext_all hm hpl
        · exact arrAgain_all hm h t hpl

theorem arrayTableAct_all {t : Table} {st : PState} (h : Inv st) : (arrayTableAct t st).All (fun x => Inv x.1) parsePanic := by
  simp only [arrayTableAct, Out.bind_eq]
  split
  · simp [Out.All, parsePanic]
  · refine Out.All.bind (I := PlaceOk st.heap.length) ?_ fun ⟨m, ts, is⟩ ⟨hm, hl⟩ _ => ?_
    · refine arrPlace_all h.map _ _ ?_
      split
      · simp [h.stack]
      · exact h.stack
    · dsimp only at hm hl ⊢
      refine (getArrayTableKey_all _ _ _ _ (by omega)).bind fun ⟨valid, full, parent⟩ _ _ => ?_
      dsimp only
      split
      · have := h.addErr (.invalidTable full st.lineCount 0 []) ⟨rfl, by simp [ParseError.pairs]⟩ rfl
        exact ⟨this.rank, hm, hl, by simp, this.cols, this.lines, this.line1⟩
      · refine ⟨h.rank, ?_, hl, by simp, h.cols, h.lines, h.line1⟩
        apply MapInv.insertNone
        · split
          · exact hm
          · exact hm.insertNone (c := .count 1) _ trivial
        · simp [KidsOk]

theorem TableType.eff_all (t : TableType) {st : PState} (h : Inv st) : Keeps (t.eff st) := by
  cases t with
  | std t => exact (stdTableAct_all (h.pushKs _)).bind fun _ h _ => h
  | arr t => exact (arrayTableAct_all (h.pushKs _)).bind fun _ h _ => h

theorem ET.eff_all (e : ET) {st : PState} (h : Inv st) : Keeps (e.eff st) := by
  cases e with
  | blank w => exact h
  | comment w c => exact h
  | kv w1 k s v w2 c =>
    rw [ET.eff]
    exact (v.eff_all (h.pushK k)).bind fun st1 ⟨h1, t1⟩ _ => keyvalAct_all h1 t1
  | table w1 t w2 c => exact t.eff_all h

theorem PX.eff_all (e : PX) {st : PState} (h : Inv st) : Keeps (e.eff st) := by
  cases e with
  | nothing => exact h
  | header t ks => exact h.pushKs ks
  | key k => exact h.pushK k
  | kv k s l => exact l.eff_all (h.pushK k)
  | pair k s v =>
    rw [PX.eff]
    exact (v.eff_all (h.pushK k)).bind fun st1 ⟨h1, t1⟩ _ => keyvalAct_all h1 t1
  | table t => exact t.eff_all h

theorem linesEff_all : ∀ (ls : List (Str × ET)) {st : PState}, Inv st → (linesEff ls st).All (fun x => Inv x.1) parsePanic
  | [], _, h => h
  | (nl, e) :: es, st, h => by
    rw [linesEff]
    refine (e.eff_all (h.linesN _)).bind fun st1 h1 _ => ?_
    exact (linesEff_all es h1).bind fun x hx _ => hx

theorem toml_all {st : PState} (h : Inv st) (i : Str) : (toml st i).All (fun x => Inv x.1) parsePanic := by
  have hs := toml_spec st i
  generalize toml st i = o at hs
  cases hs with
  | done ls px nodes r r' st1 st2 _ _ h1 _ _ h2 _ =>
    have a1 := linesEff_all ls h
    rw [h1] at a1
    have a2 := px.eff_all (st := st1) a1
    rw [h2] at a2
    exact a2
  | abort ls nl w px nodes r st1 e _ _ _ _ _ h1 h2 =>
    have a1 := linesEff_all ls h
    rw [h1] at a1
    have a2 := px.eff_all (st := st1.lines (nlCount nl)) (Inv.linesN a1 _)
    rw [h2] at a2
    cases e with
    | panic p => exact a2
    | fuel => exact a2

theorem Inv.new : Inv PState.new := by
  refine ⟨⟨id, ?_⟩, ⟨?_, ?_, ?_⟩, rfl, by simp [PState.new], by simp [PState.new], by simp [PState.new], by simp [PState.new]⟩
  · exact Grown.nil.ranked
  · intro k a h
    simp only [valOf, PState.new, SMap.get?] at h
    split at h <;> simp at h
  · intro k k' a h
    simp only [valOf, PState.new, SMap.get?] at h
    split at h <;> simp at h
  · intro k c h
    simp only [kidsOf, PState.new, SMap.get?] at h
    split at h
    · simp at h; subst h; simp [KidsOk]
    · simp at h

end Tomllib
