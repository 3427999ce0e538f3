import Verif.Lemmas.Spots
import Verif.Lemmas.Stay
import Verif.Spec.Source
/-!
# Every value comes from the text
-/

namespace Tomllib

/-! ## Keys that end with a key -/

theorem KeyEnds.refl (k : Str) : KeyEnds k k := .inl rfl

theorem KeyEnds.trans {a b c : Str} (h : KeyEnds a b) (h' : KeyEnds b c) : KeyEnds a c := by
  rcases h' with rfl | ⟨q, rfl⟩
  · exact h
  · rcases h with rfl | ⟨q', rfl⟩
    · exact .inr ⟨q, rfl⟩
    · exact .inr ⟨q ++ lit% "." ++ q', by simp⟩

theorem dotted_app {K : Str} (hK : K ≠ []) (q k : Str) : dotted (q ++ K) k = q ++ dotted K k := by
  rw [dotted, dotted, if_pos hK, if_pos (by simp [hK])]; simp

theorem indexed_app (q K : Str) (i : Nat) : indexed (q ++ K) i = q ++ indexed K i := by
  simp [indexed]

theorem dotted_nonempty (K : Str) {k : Str} (hk : k ≠ []) : dotted K k ≠ [] := by
  rw [dotted]; split <;> simp [hk]

theorem indexed_nonempty (K : Str) (i : Nat) : indexed K i ≠ [] := by
  simp [indexed, idxStr]

mutual
theorem VT.entries_app : ∀ (t : VT) {K : Str} (_ : K ≠ []) (q : Str), t.entries (q ++ K) = (t.entries K).map fun e => (q ++ e.1, e.2)
  | .leaf _, _, _, _ => rfl
  | .arr es _ _, K, hK, q => by rw [VT.entries, VT.entries]; exact es.entries_app hK q 0
  | .itab kvs _, K, hK, q => by rw [VT.entries, VT.entries]; exact kvs.entries_app hK q
theorem Elems.entries_app : ∀ (t : Elems) {K : Str} (_ : K ≠ []) (q : Str) (i : Nat), t.entries (q ++ K) i = (t.entries K i).map fun e => (q ++ e.1, e.2)
  | .nil, _, _, _, _ => rfl
  | .cons v _ _ r, K, hK, q, i => by
    rw [Elems.entries, Elems.entries, indexed_app, VT.entries_app v (indexed_nonempty K i) q, Elems.entries_app r hK q]; simp
theorem Pairs.entries_app : ∀ (t : Pairs) {K : Str} (_ : K ≠ []) (q : Str), t.entries (q ++ K) = (t.entries K).map fun e => (q ++ e.1, e.2)
  | .nil, _, _, _ => rfl
  | .cons k _ v _ _ r, K, hK, q => by
    rw [Pairs.entries, Pairs.entries, dotted_app hK, VT.entries_app v (by rw [dotted, if_pos hK]; simp) q, Pairs.entries_app r hK q]; simp
end

theorem VT.allEntries_app (t : VT) {K : Str} (hK : K ≠ []) (q : Str) : t.allEntries (q ++ K) = (t.allEntries K).map fun e => (q ++ e.1, e.2) := by
  rw [VT.allEntries, VT.allEntries, VT.entries_app t hK]; simp

/-- The entries of a line, whatever stands on the key chain. -/
theorem allEntries_ends {t : VT} {k : Str} (hk : k ≠ []) (kc : List Key) {e : Str × VT} (he : e ∈ t.allEntries (keyOf [] (kc ++ [.str k]))) :
    ∃ e' ∈ t.allEntries k, e'.2 = e.2 ∧ KeyEnds e'.1 e.1 := by
  have h0 : keyOf [] (kc ++ [.str k]) = dotted (keyOf [] kc) k := by rw [keyOf_append]; rfl
  rw [h0, dotted] at he
  split at he
  · rw [t.allEntries_app hk] at he
    obtain ⟨e', h1, rfl⟩ := List.mem_map.mp he
    exact ⟨e', h1, rfl, .inr ⟨_, rfl⟩⟩
  · exact ⟨e, he, rfl, .refl _⟩

/-! ## The state -/

/-- Every value that has been entered is that of a header, or of a tree that `S` gives to an end of its key. -/
structure Gains (S : Str → VT → Prop) (st st' : PState) : Prop where
  heap : ∃ l, st'.heap = st.heap ++ l
  vals : ∀ k (a : Nat), valOf st'.map k = some a → valOf st.map k = some a ∨ st'.heap[a]? = some .table ∨ ∃ k' t fp, S k' t ∧ KeyEnds k' k ∧ VT.Rep st'.heap t a fp

theorem Gains.mono {S S' : Str → VT → Prop} {st st' : PState} (h : Gains S st st') (hs : ∀ k t, S k t → S' k t) : Gains S' st st' :=
  ⟨h.heap, fun k a ha => (h.vals k a ha).imp_right (.imp_right fun ⟨k', t, fp, h1, h2⟩ => ⟨k', t, fp, hs _ _ h1, h2⟩)⟩

theorem Gains.same {S : Str → VT → Prop} {st st' : PState} (hm : st'.map = st.map) (hh : ∃ l, st'.heap = st.heap ++ l) : Gains S st st' :=
  ⟨hh, fun k a ha => .inl (by rwa [hm] at ha)⟩

theorem Gains.trans {S : Str → VT → Prop} {a b c : PState} (h : Gains S a b) (h' : Gains S b c) : Gains S a c := by
  obtain ⟨⟨l, h1⟩, h2⟩ := h
  obtain ⟨⟨l', g1⟩, g2⟩ := h'
  refine ⟨⟨l ++ l', by rw [g1, h1, List.append_assoc]⟩, fun k x hx => ?_⟩
  rcases g2 k x hx with g | g
  · refine (h2 k x g).imp_right (.imp ?_ ?_)
    · intro e
      rw [g1, List.getElem?_append_left (List.getElem?_eq_some_iff.mp e).1]; exact e
    · rintro ⟨k', t, fp, e1, e2, e3⟩
      exact ⟨k', t, fp, e1, e2, g1 ▸ e3.append l'⟩
  · exact .inr g

theorem insertKeys_ends {st : PState} {x y : Str} (h : insertKeys st = .ok (x, y)) : KeyEnds (keyOf [] st.keychain) x := by
  have key : ∀ {ts is z}, getFullKey st.map st.heap ts is st.keychain = .ok (z, x, y) → KeyEnds (keyOf [] st.keychain) x := by
    intro ts is z h
    simp only [getFullKey, Out.bind_eq, Out.bind_ok] at h
    obtain ⟨⟨a, b, c⟩, _, h⟩ := h
    rw [getKeychainKey_eq] at h
    simp only [Out.ok.injEq, Prod.mk.injEq] at h
    obtain ⟨_, rfl, _⟩ := h
    split
    · exact .inr ⟨_, rfl⟩
    · exact .refl _
  unfold insertKeys at h
  split at h
  · rw [getKeychainKey_eq] at h
    simp only [Out.ok.injEq, Prod.mk.injEq] at h
    rw [← h.1]; exact .refl _
  · simp only [Out.bind_eq, Out.bind_ok] at h
    obtain ⟨⟨a, b, c⟩, h1, h⟩ := h
    simp only [Out.ok.injEq, Prod.mk.injEq] at h
    obtain ⟨rfl, rfl⟩ := h
    exact key h1
  · simp only [Out.bind_eq, Out.bind_ok] at h
    obtain ⟨⟨a, b, c⟩, h1, h⟩ := h
    simp only [Out.ok.injEq, Prod.mk.injEq] at h
    obtain ⟨rfl, rfl⟩ := h
    exact key h1

theorem insertKeyval_gains {S : Str → VT → Prop} {st st' : PState} {a : Addr} {t : VT} {fp : List Addr} (hr : t.Rep st.heap a fp) (hs : S (keyOf [] st.keychain) t)
    (h : insertKeyval st a = .ok st') : Gains S st st' := by
  have hh := insertKeyval_heap h
  refine ⟨⟨[], by simp [hh]⟩, fun k b hb => ?_⟩
  simp only [insertKeyval, Out.bind_eq, Out.bind_ok] at h
  obtain ⟨⟨x, y⟩, h0, h⟩ := h
  have he := insertKeys_ends h0
  dsimp only at h
  split at h
  · rw [Out.bind_ok] at h
    obtain ⟨v, _, h⟩ := h
    simp at h; subst h; exact .inl hb
  · have key : ∀ {hv : HashValue} {z}, hv.value = some a → valOf (updateParent (st.map.insert x hv) y z) k = some b →
        valOf st.map k = some b ∨ st'.heap[b]? = some .table ∨ ∃ k' t fp, S k' t ∧ KeyEnds k' k ∧ VT.Rep st'.heap t b fp := by
      intro hv z e1 e2
      rw [valOf_updateParent, valOf_insert] at e2
      split at e2
      next e =>
        subst e
        rw [e1] at e2
        simp at e2; subst e2
        exact .inr (.inr ⟨_, t, fp, hs, he, hh ▸ hr⟩)
      · exact .inl e2
    split at h
    · simp at h
    next z hz =>
      simp at h
      have hb' := hb
      rw [← h] at hb'
      dsimp only at hb'
      split at hb'
      · exact key rfl hb'
      · split at hb'
        · exact key rfl hb'
        · exact key rfl hb'

theorem keyvalAct_gains {S : Str → VT → Prop} {k : Str} {st st' : PState} {a : Addr} {t : VT} {fp : List Addr} (hr : t.Rep st.heap a fp) (hs : S (keyOf [] st.keychain) t)
    (h : keyvalAct k a st = .ok st') : Gains S st st' := by
  simp only [keyvalAct, Out.bind_eq, Out.bind_ok] at h
  obtain ⟨st1, h1, h⟩ := h
  simp at h; subst h
  have key : Gains S st st1 → Gains S st { st1 with keychain := st1.keychain.dropLast } := fun g => ⟨g.heap, g.vals⟩
  apply key
  split at h1
  · split at h1
    · simp at h1
    · rw [Out.bind_ok] at h1
      obtain ⟨v, _, h1⟩ := h1
      simp at h1; subst h1; exact .same rfl ⟨[], by simp⟩
    · simp at h1; subst h1; exact .same rfl ⟨[], by simp⟩
  · exact insertKeyval_gains hr hs h1

theorem checkMixed_map' {t : ArrayType} {st st' : PState} (h : checkMixed t st = .ok st') : st'.map = st.map := by
  unfold checkMixed at h
  split at h
  · simp at h; subst h; rfl
  · split at h
    · simp at h; subst h; rfl
    · split at h
      · simp at h
      · simp at h
      · dsimp only at h
        rcases Out.ite_ok h with rfl | rfl <;> rfl

theorem arrayValueAct_gains {S : Str → VT → Prop} {st st' : PState} {a : Addr} {t : VT} {fp : List Addr} (hr : t.Rep st.heap a fp) (hs : S (keyOf [] st.keychain) t)
    (h : arrayValueAct a st = .ok st') : Gains S st st' := by
  simp only [arrayValueAct, Out.bind_eq, Out.bind_ok] at h
  obtain ⟨v, _, ty, _, st1, h1, st2, h2, h⟩ := h
  have e1 := checkMixed_heap h1
  have g1 : Gains S st st1 := .same (checkMixed_map' h1) ⟨[], by simp [e1]⟩
  have g2 := insertKeyval_gains (S := S) (t := t) (fp := fp) (by dsimp only; rw [e1]; exact hr) (by dsimp only; rw [(checkMixed_frame h1).keychain]; exact hs) h2
  have g3 : Gains S st st2 := g1.trans ⟨g2.heap, g2.vals⟩
  split at h
  · simp at h
  · simp at h; subst h; exact ⟨g3.heap, g3.vals⟩

theorem arrayValueAct_kc {st st' : PState} {a : Addr} {kc : List Key} {i : Nat} (hk : st.keychain = kc ++ [.idx i]) (h : arrayValueAct a st = .ok st') :
    st'.keychain = kc ++ [.idx (i + 1)] := by
  simp only [arrayValueAct, Out.bind_eq, Out.bind_ok] at h
  obtain ⟨v, _, ty, _, st1, h1, st2, h2, h⟩ := h
  have e : st2.keychain = kc ++ [.idx i] := by
    rw [(insertKeyval_frame h2).keychain]; dsimp only; rw [(checkMixed_frame h1).keychain, hk]
  rw [e, List.getLast?_concat] at h
  simp at h; subst h
  simp [Key.inc]

mutual
theorem VT.eff_gains : ∀ (t : VT) {st st' : PState}, t.eff st = .ok st' → Gains (fun k v => (k, v) ∈ t.entries (keyOf [] st.keychain)) st st'
  | .leaf s, st, st', h => by
    rw [VT.eff, Out.bind_ok] at h
    obtain ⟨st1, h1, h⟩ := h
    simp at h; subst h
    exact .same (show st1.map = st.map from Scalar.eff_map h1) ⟨_, by rw [PState.cell]; dsimp only; rw [Scalar.eff_heap h1]⟩
  | .arr es c1 c2, st, st', h => by
    rw [VT.eff, Out.bind_ok] at h
    obtain ⟨st1, h1, h⟩ := h
    simp at h; subst h
    have g := Elems.eff_gains es (st := st.openArr) (kc := st.keychain) (i := 0) rfl h1
    have g2 : Gains (fun k v => (k, v) ∈ es.entries (keyOf [] st.keychain) 0) st1 (st1.closeArr.cell (.arr (es.avs st.heap.length) c1 c2)) := .same rfl ⟨_, rfl⟩
    exact (Gains.mk (st := st) g.heap g.vals).trans g2
  | .itab kvs ws, st, st', h => by
    rw [VT.eff, Out.bind_ok] at h
    obtain ⟨st1, h1, h⟩ := h
    simp at h; subst h
    have g := Pairs.eff_gains kvs h1
    have g2 : Gains (fun k v => (k, v) ∈ kvs.entries (keyOf [] st.keychain)) st1 (st1.cell (.itab (kvs.tkvs st.heap.length) ws)) := .same rfl ⟨_, rfl⟩
    exact g.trans g2
theorem Elems.eff_gains : ∀ (t : Elems) {st st' : PState} {kc : List Key} {i : Nat}, st.keychain = kc ++ [.idx i] → t.eff st = .ok st' →
    Gains (fun k v => (k, v) ∈ t.entries (keyOf [] kc) i) st st'
  | .nil, st, st', kc, i, hk, h => by
    simp [Elems.eff] at h; subst h
    exact .same rfl ⟨[], by simp⟩
  | .cons v sep cn r, st, st', kc, i, hk, h => by
    rw [Elems.eff, Out.bind_ok] at h
    obtain ⟨st1, h1, h⟩ := h
    rw [Out.bind_ok] at h
    obtain ⟨st2, h2, h⟩ := h
    have hK : keyOf [] st.keychain = indexed (keyOf [] kc) i := by rw [hk, keyOf_append]; rfl
    have f1 := (VT.eff_frame h1).keychain
    have g1 := VT.eff_gains v h1
    obtain ⟨fp, hr⟩ := VT.rep_after h1
    have g2 := arrayValueAct_gains (S := fun k t => (k, t) ∈ (Elems.cons v sep cn r).entries (keyOf [] kc) i) hr (by rw [f1, hK, Elems.entries]; simp) h2
    have g3 := Elems.eff_gains r (arrayValueAct_kc (f1.trans hk) h2) h
    refine ((g1.mono fun k t hm => ?_).trans g2).trans (g3.mono fun k t hm => ?_)
    · rw [hK] at hm
      rw [Elems.entries]; exact List.mem_append_left _ hm
    · rw [Elems.entries]; exact List.mem_append_right _ (List.mem_cons_of_mem _ hm)
theorem Pairs.eff_gains : ∀ (t : Pairs) {st st' : PState}, t.eff st = .ok st' → Gains (fun k v => (k, v) ∈ t.entries (keyOf [] st.keychain)) st st'
  | .nil, st, st', h => by
    simp [Pairs.eff] at h; subst h
    exact .same rfl ⟨[], by simp⟩
  | .cons k ws v sep cn r, st, st', h => by
    rw [Pairs.eff, Out.bind_ok] at h
    obtain ⟨st1, h1, h⟩ := h
    rw [Out.bind_ok] at h
    obtain ⟨st2, h2, h⟩ := h
    have hK : keyOf [] (st.pushK k).keychain = dotted (keyOf [] st.keychain) k := by
      rw [show (st.pushK k).keychain = st.keychain ++ [.str k] from rfl, keyOf_append]; rfl
    have f1 := (VT.eff_frame h1).keychain
    have g1 := VT.eff_gains v h1
    obtain ⟨fp, hr⟩ := VT.rep_after h1
    have g2 := keyvalAct_gains (S := fun k' t => (k', t) ∈ (Pairs.cons k ws v sep cn r).entries (keyOf [] st.keychain)) hr (by rw [f1, hK, Pairs.entries]; simp) h2
    have g3 := Pairs.eff_gains r h
    have hk2 : st2.keychain = st.keychain := by
      rw [(keyvalAct_frame h2).1, f1, show (st.pushK k).keychain = st.keychain ++ [.str k] from rfl]; simp
    rw [hk2] at g3
    refine ((Gains.mk (st := st) g1.heap g1.vals).mono fun k' t hm => ?_).trans (g2.trans (g3.mono fun k' t hm => ?_))
    · rw [hK] at hm
      rw [Pairs.entries]; exact List.mem_append_left _ hm
    · rw [Pairs.entries]; exact List.mem_append_right _ (List.mem_cons_of_mem _ hm)
end

/-- A pair. -/
theorem pair_gains {k : Str} {v : VT} {st st1 st' : PState} (hk : k ≠ []) (h1 : v.eff (st.pushK k) = .ok st1) (h2 : keyvalAct k (st1.heap.length - 1) st1 = .ok st') :
    Gains (fun K t => (K, t) ∈ v.allEntries k) st st' := by
  have f1 := (VT.eff_frame h1).keychain
  obtain ⟨fp, hr⟩ := VT.rep_after h1
  have g1 := VT.eff_gains v h1
  have g1' : Gains (fun K t => (K, t) ∈ v.allEntries (keyOf [] (st.keychain ++ [.str k]))) st st1 :=
    (Gains.mk (st := st) g1.heap g1.vals).mono fun K t hm => List.mem_append_left _ hm
  have g2 := keyvalAct_gains (S := fun K t => (K, t) ∈ v.allEntries (keyOf [] (st.keychain ++ [.str k]))) hr (by rw [f1]; exact List.mem_append_right _ (by simp [PState.pushK])) h2
  have g := g1'.trans g2
  refine ⟨g.heap, fun K a ha => (g.vals K a ha).imp_right (.imp_right ?_)⟩
  rintro ⟨K', t, fp', e1, e2, e3⟩
  obtain ⟨⟨K'', t'⟩, d1, d2, d3⟩ := allEntries_ends hk st.keychain e1
  dsimp only at d2 d3
  subst d2
  exact ⟨K'', t', fp', d1, d3.trans e2, e3⟩

theorem TableType.eff_gains {S : Str → VT → Prop} {t : TableType} {st st' : PState} (h : t.eff st = .ok st') : Gains S st st' := by
  have hf := TableType.eff_from h
  have grown : st'.heap = st.heap ++ [.table] → Gains S st st' := by
    intro e
    refine ⟨⟨_, e⟩, fun k a ha => ?_⟩
    rcases hf k a ha with h1 | h1
    · exact .inl h1
    · subst h1
      exact .inr (.inl (by rw [e]; simp))
  rcases TableType.eff_heap h with e | e
  · cases t with
    | std t =>
      rw [TableType.eff, Out.bind_ok] at h
      obtain ⟨⟨s1, t1⟩, h1, h⟩ := h
      simp at h; subst h
      simp only [stdTableAct] at h1
      split at h1
      · simp at h1
      · simp only [Out.bind_eq, Out.bind_ok] at h1
        obtain ⟨⟨a, b, c⟩, _, h1⟩ := h1
        dsimp only at h1
        split at h1
        · rw [Out.bind_ok] at h1
          obtain ⟨_, _, h1⟩ := h1
          simp at h1
          obtain ⟨rfl, _⟩ := h1
          exact .same rfl ⟨[], by simp [PState.pushKs]⟩
        · simp only [Out.bind_ok] at h1
          obtain ⟨_, _, _, _, _, _, h1⟩ := h1
          simp at h1
          obtain ⟨rfl, _⟩ := h1
          exact grown rfl
    | arr t =>
      refine ⟨⟨[], by simp [e]⟩, fun k a ha => .inl ?_⟩
      rw [TableType.eff, Out.bind_ok] at h
      obtain ⟨⟨s1, t1⟩, h1, h⟩ := h
      simp at h; subst h
      rcases arrayTableAct_from (a + 1) (st := st.pushKs _) h1 k a ha with h2 | h2
      · exact h2
      · omega
  · exact grown e

/-- What a line gives. -/
def ET.gives : ET → Str → VT → Prop
  | .kv _ k _ v _ _, K, t => (K, t) ∈ v.allEntries k
  | _, _, _ => False

theorem ET.eff_gains {e : ET} (hw : e.wf) {st st' : PState} (h : e.eff st = .ok st') : Gains e.gives st st' := by
  cases e with
  | blank w => simp [ET.eff] at h; subst h; exact .same rfl ⟨[], by simp⟩
  | comment w c => simp [ET.eff] at h; subst h; exact .same rfl ⟨[], by simp⟩
  | kv w1 k s v w2 c =>
    rw [ET.eff, Out.bind_ok] at h
    obtain ⟨st1, h1, h⟩ := h
    rw [ET.wf] at hw
    exact pair_gains hw.2.1.ne h1 h
  | table w1 t w2 c => exact TableType.eff_gains (t := t) h

theorem linesEff_gains : ∀ {ls : List (Str × ET)} (_ : ∀ l ∈ ls, l.2.wf) {st st' : PState} {es : List NLExpression}, linesEff ls st = .ok (st', es) →
    Gains (fun K t => ∃ l ∈ ls, l.2.gives K t) st st'
  | [], _, st, st', es, h => by
    simp [linesEff] at h
    obtain ⟨rfl, _⟩ := h
    exact .same rfl ⟨[], by simp⟩
  | (nl, e) :: ls, hw, st, st', es, h => by
    rw [linesEff, Out.bind_ok] at h
    obtain ⟨st1, h1, h⟩ := h
    obtain ⟨⟨st2, es2⟩, h2, h⟩ := Out.bind_ok.mp h
    simp at h
    obtain ⟨rfl, _⟩ := h
    have a1 := ET.eff_gains (hw (nl, e) (by simp)) h1
    have a2 := linesEff_gains (fun l hl => hw l (by simp [hl])) h2
    have a1' : Gains e.gives st st1 := ⟨a1.heap, a1.vals⟩
    exact (a1'.mono fun K t ht => ⟨(nl, e), by simp, ht⟩).trans (a2.mono fun K t ⟨l, hl, ht⟩ => ⟨l, by simp [hl], ht⟩)

/-! ## What cannot be read -/

theorem infix_left {x y : Str} (h : x <:+: y) (z : Str) : x <:+: y ++ z := h.trans (List.prefix_append y z).isInfix
theorem infix_right {x y : Str} (h : x <:+: y) (z : Str) : x <:+: z ++ y := h.trans (List.suffix_append z y).isInfix

mutual
theorem VT.entries_text : ∀ (t : VT) {K : Str} {e : Str × VT}, e ∈ t.entries K → e.2.text <:+: t.text
  | .leaf _, _, _, h => by simp [VT.entries] at h
  | .arr es _ _, K, e, h => by
    rw [VT.entries] at h
    rw [VT.text]
    exact infix_left (infix_left (infix_right (es.entries_text h) _) _) _
  | .itab kvs _, K, e, h => by
    rw [VT.entries] at h
    rw [VT.text]
    exact infix_left (infix_left (infix_right (kvs.entries_text h) _) _) _
theorem Elems.entries_text : ∀ (t : Elems) {K : Str} {i : Nat} {e : Str × VT}, e ∈ t.entries K i → e.2.text <:+: t.text
  | .nil, _, _, _, h => by simp [Elems.entries] at h
  | .cons v s c r, K, i, e, h => by
    rw [Elems.text]
    simp only [Elems.entries, List.mem_append, List.mem_cons] at h
    rcases h with h | rfl | h
    · exact infix_left (infix_left (infix_left (VT.entries_text v h) _) _) _
    · exact infix_left (infix_left (infix_left (List.infix_refl _) _) _) _
    · exact infix_right (Elems.entries_text r h) _
theorem Pairs.entries_text : ∀ (t : Pairs) {K : Str} {e : Str × VT}, e ∈ t.entries K → e.2.text <:+: t.text
  | .nil, _, _, h => by simp [Pairs.entries] at h
  | .cons k s v sep c r, K, e, h => by
    rw [Pairs.text]
    simp only [Pairs.entries, List.mem_append, List.mem_cons] at h
    rcases h with h | rfl | h
    · exact infix_left (infix_left (infix_left (infix_right (VT.entries_text v h) _) _) _) _
    · exact infix_left (infix_left (infix_left (infix_right (List.infix_refl _) _) _) _) _
    · exact infix_right (Pairs.entries_text r h) _
end

theorem VT.allEntries_text (t : VT) {K : Str} {e : Str × VT} (h : e ∈ t.allEntries K) : e.2.text <:+: t.text := by
  simp only [VT.allEntries, List.mem_append, List.mem_singleton] at h
  rcases h with h | rfl
  · exact t.entries_text h
  · exact List.infix_refl _

theorem PV.eff_gains : ∀ (v : PV) {st st' : PState}, v.eff st = .ok st' → Gains (fun _ t => t.text <:+: v.text) st st'
  | .nothing, st, st', h => by simp [PV.eff] at h; subst h; exact .same rfl ⟨[], by simp⟩
  | .val t, st, st', h => (VT.eff_gains t h).mono fun K x hx => t.entries_text hx
  | .arr c1 es last, st, st', h => by
    rw [PV.eff, Out.bind_ok] at h
    obtain ⟨st1, h1, h⟩ := h
    obtain ⟨st2, h2, h⟩ := Out.bind_ok.mp h
    simp at h; subst h
    have g := Elems.eff_gains es (st := st.openArr) (kc := st.keychain) (i := 0) rfl h1
    have g2 := PV.eff_gains last h2
    have g' : Gains (fun _ t => t.text <:+: (PV.arr c1 es last).text) st st1 := (Gains.mk (st := st) g.heap g.vals).mono fun K x hx => by
      rw [PV.text]; exact infix_left (infix_right (es.entries_text hx) _) _
    have g2' : Gains (fun _ t => t.text <:+: (PV.arr c1 es last).text) st1 st2.closeArr := (Gains.mk (st' := st2.closeArr) g2.heap g2.vals).mono fun K x hx => by
      rw [PV.text]; exact infix_right hx _
    exact g'.trans g2'
  | .itab w kvs, st, st', h => (Pairs.eff_gains kvs h).mono fun K x hx => by rw [PV.text]; exact infix_right (kvs.entries_text hx) _
  | .itabK w kvs k, st, st', h => by
    rw [PV.eff, Out.bind_ok] at h
    obtain ⟨st1, h1, h⟩ := h
    simp at h; subst h
    have g := Pairs.eff_gains kvs h1
    exact (Gains.mk (st' := st1.pushK k) g.heap g.vals).mono fun K x hx => by rw [PV.text]; exact infix_left (infix_right (kvs.entries_text hx) _) _
  | .itabKV w kvs k ws last, st, st', h => by
    rw [PV.eff, Out.bind_ok] at h
    obtain ⟨st1, h1, h⟩ := h
    have g := Pairs.eff_gains kvs h1
    have g2 := PV.eff_gains last h
    have g' : Gains (fun _ t => t.text <:+: (PV.itabKV w kvs k ws last).text) st (st1.pushK k) := (Gains.mk (st' := st1.pushK k) g.heap g.vals).mono fun K x hx => by
      rw [PV.text]; exact infix_left (infix_left (infix_left (infix_left (infix_left (infix_right (kvs.entries_text hx) _) _) _) _) _) _
    exact g'.trans (g2.mono fun K x hx => by rw [PV.text]; exact infix_right hx _)

theorem PX.eff_gains (px : PX) (hw : px.wf) {st st' : PState} (h : px.eff st = .ok st') : Gains (fun _ t => px ≠ .nothing ∧ t.text <:+: px.text) st st' := by
  cases px with
  | nothing => simp [PX.eff] at h; subst h; exact .same rfl ⟨[], by simp⟩
  | header _ ks => simp [PX.eff] at h; subst h; exact .same rfl ⟨[], by simp [PState.pushKs]⟩
  | key k => simp [PX.eff] at h; subst h; exact .same rfl ⟨[], by simp [PState.pushK]⟩
  | kv k s last =>
    have g := PV.eff_gains last h
    exact (Gains.mk (st := st) g.heap g.vals).mono fun K x hx => ⟨by simp, by rw [PX.text]; exact infix_right hx _⟩
  | pair k s v =>
    rw [PX.eff, Out.bind_ok] at h
    obtain ⟨st1, h1, h⟩ := h
    exact (pair_gains hw.1.ne h1 h).mono fun K x hx => ⟨by simp, by rw [PX.text]; exact infix_right (v.allEntries_text hx) _⟩
  | table t => exact TableType.eff_gains (t := t) h

/-! ## Whole texts -/

/-- What is answered was answered before, or comes from the text. -/
theorem parse_source {p p' : Parser} {i : Str} {r : ParseResult} (hr : Reachable p) (h : p.parse i = .ok (p', r)) {ls : List (Str × ET)} {px : PX} {st1 : PState}
    (hP : Parsed p i p' r ls px st1) {K : Str} {v : Value} (hv : p'.getValue K = .ok (some v)) :
    p.getValue K = .ok (some v) ∨ (∃ l ∈ ls, Gives K v l.2) ∨ ∃ t : VT, t.value = v ∧ px ≠ .nothing ∧ t.text <:+: px.text := by
  have g1 := linesEff_gains hP.wf.lines hP.eff
  have g2 := px.eff_gains hP.pxwf hP.pxeff
  have g := (g1.mono (S' := fun K t => (∃ l ∈ ls, l.2.gives K t) ∨ px ≠ .nothing ∧ t.text <:+: px.text) fun K t h => .inl h).trans (g2.mono fun K t h => .inr h)
  obtain ⟨rank, hk⟩ := hr.inv.inv.rank
  obtain ⟨rank', hk'⟩ := (hr.parse h).inv.inv.rank
  unfold Parser.getValue at hv
  split at hv
  next a c hg =>
    simp only [Out.bind_eq, Out.bind_ok] at hv
    obtain ⟨v', h2, h3⟩ := hv
    simp at h3; subst h3
    rcases g.vals K a (valOf_some.mpr ⟨c, hg⟩) with h4 | h4 | ⟨K', t, fp, h4, h5, h6⟩
    · left
      obtain ⟨c', hg'⟩ := valOf_some.mp h4
      obtain ⟨l, hl⟩ := g.heap
      have hlt := hr.inv.inv.map.lt K a h4
      have hnt : p.st.heap[a]? ≠ some .table := by
        intro e
        rw [toVal_table (by rw [hl, List.getElem?_append_left hlt]; exact e)] at h2
        simp at h2
      obtain ⟨t, fp, h5, _⟩ := hk.tree hlt hnt
      have h6 := h5.append l
      rw [← hl] at h6
      have h7 := h6.toVal hk'
      rw [h2] at h7
      rw [Parser.getValue, hg']
      dsimp only
      rw [h5.toVal hk, ← h7]
      rfl
    · rw [toVal_table h4] at h2
      simp at h2
    · right
      have h7 := h6.toVal hk'
      rw [h2] at h7
      simp at h7; subst h7
      rcases h4 with ⟨⟨nl, e⟩, hl, h8⟩ | h4
      · left
        refine ⟨_, hl, ?_⟩
        cases e with
        | kv w1 k s x w2 c => exact ⟨_, h8, rfl, h5⟩
        | _ => exact h8.elim
      · exact .inr ⟨t, rfl, h4⟩
  · simp at hv

end Tomllib
