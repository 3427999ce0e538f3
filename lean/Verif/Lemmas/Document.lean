import Verif.Lemmas.Parse
/-!
# Documents that were read to the end: every value a key leads to is in the tree
-/

namespace Tomllib

/-! ## Reading -/

/-- What `get_value` answers. -/
theorem Inv.getValue_cases {p : Parser} (hi : Inv p.st) (key : Str) :
    (valOf p.st.map key = none ∧ p.getValue key = .ok none) ∨
    (∃ a, valOf p.st.map key = some a ∧ p.st.heap[a]? = some .table ∧ p.getValue key = .panic .tableToVal) ∨
    ∃ (a : Addr) (t : VT) (fp : List Addr), valOf p.st.map key = some a ∧ t.Rep p.st.heap a fp ∧ p.getValue key = .ok (some t.value) := by
  obtain ⟨r, hr⟩ := hi.rank
  cases ha : valOf p.st.map key with
  | none =>
    left
    refine ⟨rfl, ?_⟩
    unfold Parser.getValue
    split
    next hg => simp [valOf, hg] at ha
    · rfl
  | some a =>
    right
    obtain ⟨c, hg⟩ := valOf_some.mp ha
    by_cases ht : p.st.heap[a]? = some .table
    · left
      exact ⟨a, rfl, ht, by simp only [Parser.getValue, hg, Out.bind_eq, toVal_table ht]; rfl⟩
    · right
      obtain ⟨t, fp, h1, _⟩ := hr.tree (hi.map.lt _ _ ha) ht
      exact ⟨a, t, fp, rfl, h1, by simp only [Parser.getValue, hg, Out.bind_eq, h1.toVal hr]; rfl⟩

/-- Reading the cell of a key. -/
theorem Inv.getValue_rep {p : Parser} (hi : Inv p.st) {key : Str} {a : Addr} (ha : valOf p.st.map key = some a) {t : VT} {fp : List Addr}
    (ht : t.Rep p.st.heap a fp) : p.getValue key = .ok (some t.value) := by
  obtain ⟨r, hr⟩ := hi.rank
  obtain ⟨c, hg⟩ := valOf_some.mp ha
  simp only [Parser.getValue, hg, Out.bind_eq, ht.toVal hr]; rfl

/-- A key with a value has a cell with a tree. -/
theorem Inv.of_getValue {p : Parser} (hi : Inv p.st) {key : Str} {w : Value} (h : p.getValue key = .ok (some w)) :
    ∃ (a : Addr) (t : VT) (fp : List Addr), valOf p.st.map key = some a ∧ t.Rep p.st.heap a fp ∧ t.value = w := by
  rcases Inv.getValue_cases hi key with ⟨_, h1⟩ | ⟨_, _, _, h1⟩ | ⟨a, t, fp, h1, h2, h3⟩
  · rw [h1] at h; simp at h
  · rw [h1] at h; simp at h
  · rw [h3] at h
    simp at h
    exact ⟨a, t, fp, h1, h2, h⟩

theorem Inv.getValue_none {p : Parser} (hi : Inv p.st) {key : Str} : p.getValue key = .ok none ↔ valOf p.st.map key = none := by
  rcases Inv.getValue_cases hi key with ⟨h1, h2⟩ | ⟨_, h1, _, h2⟩ | ⟨_, _, _, h1, _, h2⟩ <;> simp [h1, h2]

/-! ## Rebuilding below a key -/

/-- Rebuilding the entries below a key whose own cell is kept. -/
theorem rebuildAt_skip {h : Heap} {n : Nat} {t : VT} (ht : ∀ s, t ≠ .leaf s) {f : Nat} {m : KMap} {key : Str} {a : Addr} {g : List Addr}
    (hr : t.Rep h a (a :: g)) (hd : (a :: g).Nodup) (hf : t.depth ≤ f) (hp : RebPre m (a :: g) n) :
    (rebuildAt h f m key a true).All (RebOk m g n) (· = .rebuildVacant) := by
  rw [List.nodup_cons] at hd
  have hback : ∀ {hv : HashValue} {c : Children} {m' : KMap}, m.get? key = some hv → RebOk (m.insert key ⟨hv.value, c⟩) g n m' → RebOk m g n m' := by
    intro hv c m' hg h'
    refine ⟨h'.1, fun k x hk => ?_⟩
    rcases h'.2 k x hk with h1 | h1
    · rw [valOf_insert] at h1
      split at h1
      next e => subst e; left; simpa [valOf, hg] using h1
      · exact .inl h1
    · exact .inr h1
  cases t with
  | leaf s => exact absurd rfl (ht s)
  | arr es c1 c2 =>
    obtain ⟨f, rfl⟩ : ∃ g, f = g + 1 := ⟨f - 1, by simp [VT.depth] at hf; omega⟩
    obtain ⟨avs, g', h1, r1, e⟩ := hr
    simp at e; subst e
    simp only [rebuildAt, h1]
    split
    · rfl
    next hv hg =>
      have hp' := hp.insert hd.1 hg true (c := .count avs.length) trivial
      exact (rebuildAVs_all es f r1 hd.2 (by simp [VT.depth] at hf; omega) hp' (i := 0) (key := key)).mono (fun m' h' => hback hg h') (fun _ h => h)
  | itab es c1 =>
    obtain ⟨f, rfl⟩ : ∃ g, f = g + 1 := ⟨f - 1, by simp [VT.depth] at hf; omega⟩
    obtain ⟨avs, g', h1, r1, e⟩ := hr
    simp at e; subst e
    simp only [rebuildAt, h1]
    split
    · rfl
    next hv hg =>
      have hk : KidsOk (match hv.subkeys with
          | .keys ks => Children.keys (avs.foldl (fun ks kv => (insertUniq ks kv.keyval.key).1) ks)
          | .count c => .count c) := by
        have := hp.inv.get hg
        split
        next ks e => rw [e] at this; exact foldl_insertUniq_nodup _ _ this
        · trivial
      have hp' := hp.insert hd.1 hg true hk
      exact (rebuildKVs_all es f r1 hd.2 (by simp [VT.depth] at hf; omega) hp' (key := key)).mono (fun m' h' => hback hg h') (fun _ h => h)

/-! ## Anchored parsers -/

/-- The tree stands for the lines `ls` with the cells `fp`. -/
structure Shown (p : Parser) (ls : List (Str × ET)) (fp : List Addr) : Prop where
  inv : Inv p.st
  rep : LinesRep p.st.heap ls p.tree.exprs fp
  nodup : fp.Nodup
  ne : ls ≠ []

/-- Every key leads to a cell of the tree or to a table header. -/
structure Anchored (p : Parser) (ls : List (Str × ET)) (fp : List Addr) : Prop extends Shown p ls fp where
  cell : ∀ k a, valOf p.st.map k = some a → a ∈ fp ∨ p.st.heap[a]? = some .table

theorem Shown.display {p : Parser} {ls : List (Str × ET)} {fp : List Addr} (h : Shown p ls fp) :
    p.display = textOr (hasEmptyTable ls) (linesText ls) := by
  obtain ⟨r, hr⟩ := h.inv.rank
  have := renderToml_rep hr h.rep
  have hne : ls.isEmpty = false := by have := h.ne; cases ls <;> simp_all
  rw [hne, Bool.false_or] at this
  exact this

/-- A parser that has just read a document from start to end. -/
theorem Anchored.parse {i : Str} {p : Parser} {r : ParseResult} (h : Parser.new.parse i = .ok (p, r)) (hr : r = .full ∨ ∃ e, r = .fullError e) :
    ∃ ls fp, Anchored p ls fp ∧ DocWf ls ∧ i = linesText ls := by
  obtain ⟨ls, px, st1, hP⟩ := parse_parsed h
  have hl : p.leftover = [] := by
    have := hP.res
    unfold resultOf at this
    split at this
    · rcases hr with rfl | ⟨e, rfl⟩ <;> split at this <;> simp at this
    next h => simpa using h
  obtain ⟨hpx, _, hi⟩ := hP.full hl
  obtain ⟨l, fp, h1, h2, h3, h4, h5⟩ := hP.tree
  have hinv := (Reachable.parse .new h).inv.inv
  refine ⟨ls, fp, ⟨⟨hinv, h2, h3, ?_⟩, fun k a ha => ?_⟩, hP.wf, hi⟩
  · have := hP.wf
    rintro rfl
    exact this
  · exact h5 hpx a (Nat.zero_le _) (hinv.map.lt k a ha)

/-- The subtree of the document that a readable key leads to. -/
theorem Anchored.focus {p : Parser} {ls : List (Str × ET)} {fp : List Addr} (h : Anchored p ls fp) {key : Str} {w : Value}
    (hg : p.getValue key = .ok (some w)) :
    ∃ a, valOf p.st.map key = some a ∧ ∃ F : LinesFocus p.st.heap ls p.tree.exprs fp a, F.sub.value = w := by
  obtain ⟨a, t, f, h1, h2, h3⟩ := h.inv.of_getValue hg
  rcases h.cell key a h1 with h4 | h4
  · obtain ⟨F⟩ := h.rep.focus h4
    refine ⟨a, h1, F, ?_⟩
    have := h.inv.getValue_rep h1 F.sub_rep
    rw [hg] at this
    simp at this
    exact this.symm
  · have h5 : p.getValue key = .panic .tableToVal := by
      obtain ⟨c, hm⟩ := valOf_some.mp h1
      simp only [Parser.getValue, hm, Out.bind_eq, toVal_table h4]; rfl
    rw [hg] at h5; simp at h5

/-! ## `set_value` on anchored parsers -/

/-- `set_value` with a value of the same structure. -/
theorem Shown.set_same {p : Parser} {ls : List (Str × ET)} {fp : List Addr} (h : Shown p ls fp) {key : Str} {a : Addr}
    (ha : valOf p.st.map key = some a) (F : LinesFocus p.st.heap ls p.tree.exprs fp a) {v : Value} (hv : F.sub.fits v = true) :
    ∃ h', p.setValue key v = .ok ({ p with st := { p.st with heap := h' } }, true) ∧
      Shown { p with st := { p.st with heap := h' } } (F.plug (F.sub.replace v)) fp ∧ (F.sub.replace v).Rep h' a F.fb ∧
      SameOff F.fb p.st.heap h' := by
  have hfp := F.fp_eq
  have hnd := h.nodup
  rw [hfp, List.nodup_append, List.nodup_append] at hnd
  obtain ⟨⟨n1, n2, n3⟩, n4, n5⟩ := hnd
  obtain ⟨h', e, hrep, hoff⟩ := replaceValues_rep v F.sub_rep n2 hv
  obtain ⟨c0, hg⟩ := valOf_some.mp ha
  have hs : sameStructure p.st.heap a v = true := by rw [sameStructure_rep v F.sub_rep, hv]
  obtain ⟨h'', e2, hag⟩ := replaceValues_agree v hs (Agree.refl p.st.heap)
  rw [e] at e2; simp at e2; subst e2
  have hset : p.setValue key v = .ok ({ p with st := { p.st with heap := h' } }, true) := by
    unfold Parser.setValue
    simp only [hg, hs, Out.bind_eq, e, Out.bind, if_true]
  obtain ⟨r, hr⟩ := h.inv.rank
  have hrep2 := F.rep_eq h' _ F.fb hrep (fun x hx => hoff.2 x (by
    intro hm
    rw [List.mem_append] at hx
    rcases hx with hx | hx
    · exact n3 x hx x hm rfl
    · exact n5 x (by simp [hm]) x hx rfl))
  rw [← hfp] at hrep2
  refine ⟨h', hset, ⟨⟨⟨r, hag.ranked hr⟩, ?_, h.inv.stack, h.inv.err, h.inv.cols, h.inv.lines, h.inv.line1⟩, hrep2, h.nodup, ?_⟩, hrep, hoff⟩
  · dsimp only
    rw [hag.1]; exact h.inv.map
  · have := F.good_eq (F.sub.replace v)
    intro e
    rw [e] at this
    have hne := h.ne
    cases ls <;> simp_all

/-- `set_value` with a value of the same structure. -/
theorem Anchored.set_same {p : Parser} {ls : List (Str × ET)} {fp : List Addr} (h : Anchored p ls fp) {key : Str} {a : Addr}
    (ha : valOf p.st.map key = some a) (F : LinesFocus p.st.heap ls p.tree.exprs fp a) {v : Value} (hv : F.sub.fits v = true) :
    ∃ h', p.setValue key v = .ok ({ p with st := { p.st with heap := h' } }, true) ∧
      Anchored { p with st := { p.st with heap := h' } } (F.plug (F.sub.replace v)) fp ∧ (F.sub.replace v).Rep h' a F.fb ∧
      SameOff F.fb p.st.heap h' := by
  obtain ⟨h', h1, h2, h3, h4⟩ := h.toShown.set_same ha F hv
  refine ⟨h', h1, ⟨h2, ?_⟩, h3, h4⟩
  intro k x hk
  rcases h.cell k x hk with g | g
  · exact .inl g
  · by_cases hx : x ∈ fp
    · exact .inl hx
    · right
      dsimp only
      rw [h4.2 x (fun hm => hx (by rw [F.fp_eq]; simp [hm])), g]

theorem Value.fresh_ne_leaf {v : Value} (hv : v.scalar? = none) (s : Scalar) : v.fresh ≠ .leaf s := by
  cases v <;> simp [Value.scalar?] at hv <;> simp [Value.fresh]

/-- `set_value` with a valid array or inline table of another structure. -/
theorem Anchored.set_vector {p : Parser} {ls : List (Str × ET)} {fp : List Addr} (h : Anchored p ls fp) {key : Str} {a : Addr}
    (ha : valOf p.st.map key = some a) (F : LinesFocus p.st.heap ls p.tree.exprs fp a) {v : Value} (hv : F.sub.fits v = false)
    (hsc : v.scalar? = none) (hd : v.deepValid = true) {subs : List Str} (hsub : allSubkeys p.st.map key = .ok subs) :
    ∃ g, (rebuildAt (graftHeap p.st.heap a v) ((graftHeap p.st.heap a v).length + 1) (eraseAll p.st.map subs) key
      (v.fresh.addr p.st.heap.length) true).All (fun m =>
        p.setValue key v = .ok ({ p with st := { p.st with map := m, heap := graftHeap p.st.heap a v } }, true) ∧
        Shown { p with st := { p.st with map := m, heap := graftHeap p.st.heap a v } } (F.plug v.fresh) (F.f1 ++ (a :: g) ++ F.f2) ∧
        ((∀ k x, valOf p.st.map k = some x → x ∈ F.fb → x ≠ a → k ∈ subs) →
          Anchored { p with st := { p.st with map := m, heap := graftHeap p.st.heap a v } } (F.plug v.fresh) (F.f1 ++ (a :: g) ++ F.f2)) ∧
        v.fresh.Rep (graftHeap p.st.heap a v) a (a :: g)) (fun x => x = .rebuildVacant ∧ p.setValue key v = .panic .rebuildVacant) := by
  have hlt := h.inv.map.lt key a ha
  obtain ⟨r, hr⟩ := h.inv.rank
  have hs : sameStructure p.st.heap a v = false := by rw [sameStructure_rep v F.sub_rep, hv]
  obtain ⟨r', g, c, tv, _, _, _, hrk, ra, rb, nd, hb, hoff⟩ := graft_spec hr hlt v
  have hme := eraseAll_inv h.inv.map subs
  have hreb := rebuildAt_skip (n := (graftHeap p.st.heap a v).length) (t := v.fresh) (Value.fresh_ne_leaf hsc) (f := (graftHeap p.st.heap a v).length + 1)
    (m := eraseAll p.st.map subs) (key := key) rb nd (by have := rb.depth hrk; omega)
    ⟨hme.mono (by simp [graftHeap]), fun x hx => (hb x hx).2, fun k x hk hm => by
      have h1 := hme.lt k x hk
      have h2 := (hb x hm).1
      omega⟩
  have hset := setValue_vector hr ha hlt hs hsc hd hsub
  refine ⟨g, ?_⟩
  generalize hR : rebuildAt _ _ _ _ _ _ = R at hreb hset
  cases R with
  | fuel => exact hreb
  | panic x => exact ⟨hreb, by rw [hset, show x = .rebuildVacant from hreb]; rfl⟩
  | ok m =>
    suffices hsuff : _ ∧ _ from ⟨hset, hsuff.1, hsuff.2, ra⟩
    have hfp := F.fp_eq
    have hsubm : ∀ x ∈ F.f1 ++ F.f2, x ∈ fp := by intro x hx; rw [hfp]; grind
    have hafb : a ∈ F.fb := F.sub_rep.kids.1
    have haf : a ∈ fp := by rw [hfp]; simp [hafb]
    have hnd2 := h.nodup
    rw [hfp] at hnd2
    have hane : ∀ x ∈ F.f1 ++ F.f2, x ≠ a := by
      intro x hx e
      subst e
      rw [List.nodup_append, List.nodup_append] at hnd2
      grind
    have hrep2 := F.rep_eq _ v.fresh (a :: g) ra (fun x hx => hoff x (h.rep.bound x (hsubm x hx)).1 (hane x hx))
    rw [List.nodup_cons] at nd
    have hgn : ∀ x ∈ g, ∀ y ∈ fp, x ≠ y := by
      intro x hx y hy e
      subst e
      have h1 := (hb x (by simp [hx])).1
      have h2 := (h.rep.bound x hy).1
      exact absurd (Nat.lt_of_lt_of_le h2 h1) (Nat.lt_irrefl _)
    have hag : a ∉ g := fun h => hgn a h a haf rfl
    have hsh : Shown { p with st := { p.st with map := m, heap := graftHeap p.st.heap a v } } (F.plug v.fresh) (F.f1 ++ (a :: g) ++ F.f2) := by
     refine ⟨⟨⟨r', hrk⟩, hreb.1, h.inv.stack, h.inv.err, h.inv.cols, h.inv.lines, h.inv.line1⟩, hrep2, ?_, ?_⟩
     · rw [List.nodup_append, List.nodup_append] at hnd2 ⊢
       obtain ⟨⟨n1, n2, n3⟩, n4, n5⟩ := hnd2
       refine ⟨⟨n1, by rw [List.nodup_cons]; exact ⟨hag, nd.2⟩, ?_⟩, n4, ?_⟩
       · intro x hx y hy
         rw [List.mem_cons] at hy
         rcases hy with rfl | hy
         · exact hane x (by simp [hx])
         · exact fun e => hgn y hy x (hsubm x (by simp [hx])) e.symm
       · intro x hx y hy
         rw [List.mem_append, List.mem_cons] at hx
         rcases hx with hx | rfl | hx
         · exact n5 x (by simp [hx]) y hy
         · exact fun e => hane y (by simp [hy]) e.symm
         · exact hgn x hx y (hsubm y (by simp [hy]))
     · have := F.good_eq v.fresh
       intro e
       rw [e] at this
       have hne := h.ne
       cases ls <;> simp_all
    refine ⟨hsh, fun hstale => ⟨hsh, ?_⟩⟩
    · intro k x hk
      rcases hreb.2 k x hk with h1 | h1
      · have h1' : valOf p.st.map k = some x := by
          unfold valOf at h1 ⊢
          rw [eraseAll_get] at h1
          split at h1
          · simp at h1
          · exact h1
        rcases h.cell k x h1' with h2 | h2
        · left
          rw [hfp] at h2
          by_cases hxb : x ∈ F.fb
          · by_cases hxa : x = a
            · subst hxa; simp
            · have hks : k ∈ subs := hstale k x h1' hxb hxa
              unfold valOf at h1
              rw [eraseAll_get, if_pos hks] at h1
              simp at h1
          · grind
        · by_cases hxa : x = a
          · left; subst hxa; simp
          · right
            rw [show ({ p with st := { p.st with map := m, heap := graftHeap p.st.heap a v } } : Parser).st.heap = graftHeap p.st.heap a v from rfl,
              hoff x (h.inv.map.lt k x h1') hxa, h2]
      · left; simp [h1]

end Tomllib
