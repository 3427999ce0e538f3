import Verif.Lemmas.Hist
/-!
# A document that has just been read: the entries of its values
-/

namespace Tomllib

/-! ## Table headers keep the cells of values -/

/-- No key gets a new cell, except for the cell `n`. -/
def ValsFrom (n : Nat) (m m' : KMap) : Prop := ∀ k (a : Nat), valOf m' k = some a → valOf m k = some a ∨ a = n

theorem ValsFrom.refl (n : Nat) (m : KMap) : ValsFrom n m m := fun _ _ h => .inl h

theorem ValsFrom.trans {n : Nat} {m m' m'' : KMap} (h : ValsFrom n m m') (h' : ValsFrom n m' m'') : ValsFrom n m m'' := by
  intro k a ha
  rcases h' k a ha with h1 | h1
  · exact h k a h1
  · exact .inr h1

theorem ValsFrom.kids (n : Nat) {m : KMap} {k : Str} {v : Option Addr} {c c' : Children} (hg : m.get? k = some ⟨v, c⟩) : ValsFrom n m (m.insert k ⟨v, c'⟩) := by
  intro k' a ha
  rw [valOf_insert] at ha
  split at ha
  next e => subst e; left; simpa [valOf, hg] using ha
  · exact .inl ha

theorem ValsFrom.none (n : Nat) (m : KMap) (k : Str) (c : Children) : ValsFrom n m (m.insert k ⟨.none, c⟩) := by
  intro k' a ha
  rw [valOf_insert] at ha
  split at ha
  · simp at ha
  · exact .inl ha

theorem ValsFrom.fresh (n : Nat) (m : KMap) (k : Str) (c : Children) : ValsFrom n m (m.insert k ⟨some n, c⟩) := by
  intro k' a ha
  rw [valOf_insert] at ha
  split at ha
  · simp at ha; exact .inr ha.symm
  · exact .inl ha

theorem implicitLoop_from (n : Nat) : ∀ (ks : List Str) {m m' : KMap} {lk : Str} {first : Bool}, implicitLoop ks m lk first = .ok m' → ValsFrom n m m'
  | [], m, m', _, _, h => by
    simp [implicitLoop] at h; subst h; exact .refl n _
  | k :: ks, m, m', lk, first, h => by
    have key : ∀ (m1 : KMap) (ins f : Bool), ValsFrom n m m1 → (if ks = [] then Out.ok m1
          else implicitLoop ks (if ins then m1.insert (if lk ≠ root then lk ++ lit% "." ++ k else k) ⟨none, .keys []⟩ else m1)
            (if lk ≠ root then lk ++ lit% "." ++ k else k) f) = .ok m' → ValsFrom n m m' := by
      intro m1 ins f h1 h2
      split at h2
      · simp at h2; subst h2; exact h1
      · refine h1.trans ?_
        have h3 := implicitLoop_from n ks h2
        split at h3
        · exact (ValsFrom.none n _ _ _).trans h3
        · exact h3
    unfold implicitLoop at h
    cases hg : m.get? lk with
    | none =>
      rw [hg] at h
      exact key m false first (.refl n m) h
    | some hv =>
      rw [hg] at h
      obtain ⟨v, c⟩ := hv
      cases c with
      | keys names => exact key _ _ _ (.kids n hg) h
      | count c =>
        cases first with
        | true =>
          exact key _ true false (.kids n (c' := .count (c + 1)) hg) h
        | false => simp at h

theorem addImplicitTables_from (n : Nat) {m m' : KMap} {h : Heap} {ts : List TableType} {is : List Nat} {t : TableType} (e : addImplicitTables m h ts is t = .ok m') : ValsFrom n m m' := by
  simp only [addImplicitTables, Out.bind_eq] at e
  rw [Out.bind_ok] at e
  obtain ⟨⟨v, lk, pk⟩, _, e⟩ := e
  dsimp only at e
  split at e
  · simp at e; subst e; exact .refl n _
  · exact implicitLoop_from n _ e

theorem addToTableSet_from (n : Nat) {m m' : KMap} {ts : List TableType} {is : List Nat} {k : Str} (e : addToTableSet m ts is k = .ok m') : ValsFrom n m m' := by
  simp only [addToTableSet, Out.bind_eq] at e
  rw [Out.bind_ok] at e
  obtain ⟨pk, _, e⟩ := e
  split at e
  next hg => simp at e; subst e; exact .kids n hg
  · simp at e; subst e; exact .refl n _

theorem incrementArrayTableIndex_from (n : Nat) {m m' : KMap} {ts : List TableType} {is is' : List Nat} (e : incrementArrayTableIndex m ts is = .ok (m', is')) : ValsFrom n m m' := by
  simp only [incrementArrayTableIndex, Out.bind_eq] at e
  rw [Out.bind_ok] at e
  obtain ⟨pk, _, e⟩ := e
  split at e
  · simp at e
  · simp at e
    rw [← e.1]
    split
    next hg => exact .kids n hg
    · exact .refl n _

theorem stdEntry_from (n : Nat) (m : KMap) (k : Str) : ValsFrom n m (stdEntry m n k) := by
  unfold stdEntry
  split
  · exact .fresh n _ _ _
  · exact .fresh n _ _ _

theorem stdParent_from (n : Nat) {m m' : KMap} {pk nm : Str} (e : stdParent m pk nm = .ok m') : ValsFrom n m m' := by
  unfold stdParent at e
  split at e
  next hg => simp at e; subst e; exact .kids n hg
  · simp at e
  · simp at e; subst e; exact .refl n _

theorem stdTableAct_from {t : Table} {st st' : PState} {tt : TableType} (e : stdTableAct t st = .ok (st', tt)) : ValsFrom st.heap.length st.map st'.map := by
  simp only [stdTableAct, Out.bind_eq] at e
  split at e
  · simp at e
  · rw [Out.bind_ok] at e
    obtain ⟨⟨a, b, c⟩, _, e⟩ := e
    split at e
    · rw [Out.bind_ok] at e
      obtain ⟨_, _, e⟩ := e
      simp at e; rw [← e.1]; exact .refl _ _
    · rw [Out.bind_ok] at e
      obtain ⟨m1, e1, e⟩ := e
      rw [Out.bind_ok] at e
      obtain ⟨m2, e2, e⟩ := e
      rw [Out.bind_ok] at e
      obtain ⟨m3, e3, e⟩ := e
      simp at e; rw [← e.1]
      exact (((addImplicitTables_from _ e1).trans (addToTableSet_from _ e2)).trans (stdEntry_from _ _ _)).trans (stdParent_from _ e3)

theorem arrPush_from (n : Nat) {m m' : KMap} {h : Heap} {t : TableType} {ts ts' : List TableType} {is is' : List Nat} (e : arrPush m h t ts is = .ok (m', ts', is')) : ValsFrom n m m' := by
  simp only [arrPush, Out.bind_eq] at e
  rw [Out.bind_ok] at e
  obtain ⟨m1, e1, e⟩ := e
  simp at e; rw [← e.1]
  exact addImplicitTables_from n e1

theorem arrNext_from (n : Nat) {m m' : KMap} {ts ts' : List TableType} {is is' : List Nat} (e : arrNext m ts is = .ok (m', ts', is')) : ValsFrom n m m' := by
  simp only [arrNext, Out.bind_eq] at e
  rw [Out.bind_ok] at e
  obtain ⟨⟨m1, is1⟩, e1, e⟩ := e
  simp at e; rw [← e.1]
  exact incrementArrayTableIndex_from n e1

theorem arrAgain_from (n : Nat) {m m' : KMap} {h : Heap} {t : TableType} {ts ts' : List TableType} {is is' : List Nat} (e : arrAgain m h t ts is = .ok (m', ts', is')) : ValsFrom n m m' := by
  simp only [arrAgain, Out.bind_eq] at e
  rw [Out.bind_ok] at e
  obtain ⟨⟨m1, ts1, is1⟩, e1, e⟩ := e
  rw [Out.bind_ok] at e
  obtain ⟨pk, _, e⟩ := e
  dsimp only at e
  refine (arrPush_from n e1).trans ?_
  split at e
  · exact arrNext_from n e
  · simp at e; rw [← e.1]; exact .refl n _

theorem arrPlace_from (n : Nat) {m m' : KMap} {h : Heap} {t : TableType} {ts ts' : List TableType} {is is' : List Nat} (e : arrPlace m h t ts is = .ok (m', ts', is')) : ValsFrom n m m' := by
  unfold arrPlace at e
  split at e
  · exact arrPush_from n e
  · split at e
    · exact arrNext_from n e
    · split at e
      · exact arrPush_from n e
      · dsimp only at e
        split at e
        · exact arrNext_from n e
        · exact arrAgain_from n e

theorem arrayTableAct_from (n : Nat) {t : Table} {st st' : PState} {tt : TableType} (e : arrayTableAct t st = .ok (st', tt)) : ValsFrom n st.map st'.map := by
  simp only [arrayTableAct, Out.bind_eq] at e
  split at e
  · simp at e
  · rw [Out.bind_ok] at e
    obtain ⟨⟨m1, ts1, is1⟩, e1, e⟩ := e
    rw [Out.bind_ok] at e
    obtain ⟨⟨a, b, c⟩, _, e⟩ := e
    have h1 := arrPlace_from n e1
    dsimp only at e
    split at e
    · simp at e; rw [← e.1]; exact h1
    · simp at e; rw [← e.1]
      refine h1.trans (ValsFrom.trans ?_ (.none n _ _ _))
      split
      · exact .refl n _
      · exact .none n _ _ _

theorem TableType.eff_from {t : TableType} {st st' : PState} (e : t.eff st = .ok st') : ValsFrom st.heap.length st.map st'.map := by
  cases t with
  | std t =>
    rw [TableType.eff, Out.bind_ok] at e
    obtain ⟨⟨s, tt⟩, h1, h⟩ := e
    simp at h; subst h
    exact stdTableAct_from (st := st.pushKs _) h1
  | arr t =>
    rw [TableType.eff, Out.bind_ok] at e
    obtain ⟨⟨s, tt⟩, h1, h⟩ := e
    simp at h; subst h
    exact arrayTableAct_from _ (st := st.pushKs _) h1

/-! ## The cells of a value that has just been read -/

mutual
theorem VT.slot_reach : ∀ (t : VT) (pre post : Heap) (s : List Key) {t' : VT}, t.part s = some t' →
    ∃ c, reach (pre ++ t.cells pre.length ++ post) (t.addr pre.length) s = some c ∧ t.slot pre.length s = some ⟨some c, t'.children⟩
  | t, pre, post, [], t', h => by
    rw [VT.part_nil] at h
    cases h
    exact ⟨t.addr pre.length, rfl, by cases t <;> rfl⟩
  | .leaf _, _, _, .str _ :: _, _, h => by simp [VT.part] at h
  | .leaf _, _, _, .idx _ :: _, _, h => by simp [VT.part] at h
  | .arr _ _ _, _, _, .str _ :: _, _, h => by simp [VT.part] at h
  | .itab _ _, _, _, .idx _ :: _, _, h => by simp [VT.part] at h
  | .arr es c1 c2, pre, post, .idx i :: q, t', h => by
    have hc : (pre ++ (VT.arr es c1 c2).cells pre.length ++ post)[(VT.arr es c1 c2).addr pre.length]? = some (.arr (es.avs pre.length) c1 c2) := by
      simp only [VT.addr, VT.size, VT.cells]
      rw [List.append_assoc, List.append_assoc, List.getElem?_append_right (by omega), List.getElem?_append_right (by rw [Elems.cells_length]; omega), Elems.cells_length]
      rw [show pre.length + (es.size + 1) - 1 - pre.length - es.size = 0 by omega]
      rfl
    obtain ⟨c, g1, g2⟩ := Elems.slot_reach es pre ([.arr (es.avs pre.length) c1 c2] ++ post) i q (by simpa [VT.part] using h)
    refine ⟨c, ?_, g2⟩
    rw [reach_arr hc, ← g1]
    simp [VT.cells]
  | .itab es ws, pre, post, .str i :: q, t', h => by
    have hc : (pre ++ (VT.itab es ws).cells pre.length ++ post)[(VT.itab es ws).addr pre.length]? = some (.itab (es.tkvs pre.length) ws) := by
      simp only [VT.addr, VT.size, VT.cells]
      rw [List.append_assoc, List.append_assoc, List.getElem?_append_right (by omega), List.getElem?_append_right (by rw [Pairs.cells_length]; omega), Pairs.cells_length]
      rw [show pre.length + (es.size + 1) - 1 - pre.length - es.size = 0 by omega]
      rfl
    obtain ⟨c, g1, g2⟩ := Pairs.slot_reach es pre ([.itab (es.tkvs pre.length) ws] ++ post) i q (by simpa [VT.part] using h)
    refine ⟨c, ?_, g2⟩
    rw [reach_itab hc, ← g1]
    simp [VT.cells]
theorem Elems.slot_reach : ∀ (t : Elems) (pre post : Heap) (i : Nat) (s : List Key) {t' : VT}, t.part i s = some t' →
    ∃ c, reachE (pre ++ t.cells pre.length ++ post) (t.avs pre.length) i s = some c ∧ t.slot pre.length i s = some ⟨some c, t'.children⟩
  | .nil, _, _, _, _, _, h => by simp [Elems.part] at h
  | .cons v sep cn r, pre, post, 0, q, t', h => by
    obtain ⟨c, g1, g2⟩ := VT.slot_reach v pre (r.cells (pre.length + v.size) ++ post) q (by simpa [Elems.part] using h)
    refine ⟨c, ?_, g2⟩
    simp only [reachE, Elems.avs, List.getElem?_cons_zero]
    rw [← g1]
    simp [Elems.cells]
  | .cons v sep cn r, pre, post, i + 1, q, t', h => by
    obtain ⟨c, g1, g2⟩ := Elems.slot_reach r (pre ++ v.cells pre.length) post i q (by simpa [Elems.part] using h)
    rw [List.length_append, VT.cells_length] at g1 g2
    refine ⟨c, ?_, g2⟩
    simp only [reachE, Elems.avs, List.getElem?_cons_succ] at g1 ⊢
    rw [← g1]
    simp [Elems.cells]
theorem Pairs.slot_reach : ∀ (t : Pairs) (pre post : Heap) (i : Str) (s : List Key) {t' : VT}, t.part i s = some t' →
    ∃ c, reachK (pre ++ t.cells pre.length ++ post) (t.tkvs pre.length) i s = some c ∧ t.slot pre.length i s = some ⟨some c, t'.children⟩
  | .nil, _, _, _, _, _, h => by simp [Pairs.part] at h
  | .cons k ws v sep cn r, pre, post, i, q, t', h => by
    rw [Pairs.part] at h
    split at h
    next hk =>
      obtain ⟨c, g1, g2⟩ := VT.slot_reach v pre (r.cells (pre.length + v.size) ++ post) q h
      refine ⟨c, ?_, by rw [Pairs.slot, if_pos hk]; exact g2⟩
      simp only [reachK, Pairs.tkvs, List.find?_cons, hk, decide_true]
      rw [← g1]
      simp [Pairs.cells]
    next hk =>
      obtain ⟨c, g1, g2⟩ := Pairs.slot_reach r (pre ++ v.cells pre.length) post i q h
      rw [List.length_append, VT.cells_length] at g1 g2
      refine ⟨c, ?_, by rw [Pairs.slot, if_neg hk]; exact g2⟩
      simp only [reachK, Pairs.tkvs, List.find?_cons, hk, decide_false] at g1 ⊢
      rw [← g1]
      simp [Pairs.cells]
end

namespace Sections

/-- A line keeps the entries of the values before it. -/
theorem Sim.keepsVals {D : Sections} {st st' : PState} (h : D.Sim st) {e : ET} (hw : e.wf) (hf : D.fits e) (he : e.eff st = .ok st') (h' : (D.step e).Sim st') (hp : (D.step e).Plain)
    {x : List Key × VT} (hx : x ∈ D.vals) {s : List Key} {t : VT} (hs : PathWf (x.1 ++ s)) (ht : x.2.part s = some t) {c : Addr} (hc : KP st.map (x.1 ++ s) = some ⟨some c, t.children⟩) :
    KP st'.map (x.1 ++ s) = some ⟨some c, t.children⟩ := by
  cases e with
  | blank w => simp [ET.eff] at he; subst he; exact hc
  | comment w c => simp [ET.eff] at he; subst he; exact hc
  | kv w1 k s' v w2 c' =>
    rw [ET.wf] at hw
    obtain ⟨st1, h1, _, h3⟩ := h.kv (w1 := w1) (s := s') (w2 := w2) (c := c') hw.2.1 hw.2.2.2.1 hf.1 (VT.sound_distinct _ hf.2)
    rw [he] at h1
    simp at h1
    subst h1
    have hx' : x ∈ (D.step (.kv w1 k s' v w2 c')).vals := by simp [step, hx]
    have hap := h'.good.apart hp
    rw [h3 _ hs, if_neg, if_neg, hc]
    · intro e
      have hv : D.valueAt D.here = none := (h.good.slot _ (h.at.wf)).val_tab h.hereT
      rw [← e, valueAt_none] at hv
      have := hv x hx (List.prefix_append _ _)
      rw [List.drop_left, ht] at this
      simp at this
    · intro hpre
      have hvals : (D.step (.kv w1 k s' v w2 c')).vals = D.vals ++ [(D.here ++ [Key.str k], v)] := rfl
      rw [hvals, List.pairwise_append] at hap
      exact (hap.2.2 x hx (D.here ++ [Key.str k], v) (by simp)).of_prefix (q := x.1 ++ s) (List.prefix_append _ _) hpre
  | table w1 tt w2 c' =>
    have hvals : (D.step (.table w1 tt w2 c')).vals = D.vals := by cases tt <;> rfl
    have hx' : x ∈ (D.step (.table w1 tt w2 c')).vals := by rw [hvals]; exact hx
    have hv := valueAt_apart (h'.good.apart hp) hx' s
    rw [ht] at hv
    obtain ⟨a, fp, e1, e2⟩ := (h'.good.slot _ hs).val t hv
    rw [e1]
    have hva : valOf st'.map (parP (x.1 ++ s)) = some a := by
      have : st'.map.get? (parP (x.1 ++ s)) = _ := e1
      simp [valOf, this]
    rcases TableType.eff_from he _ _ hva with h1 | h1
    · have h2 : st.map.get? (parP (x.1 ++ s)) = _ := hc
      simp [valOf, h2] at h1
      rw [h1]
    · exfalso
      have hb := e2.bound a e2.kids.1
      rcases TableType.eff_heap he with h2 | h2
      · have h3 := hb.1
        rw [h2, h1] at h3
        exact absurd h3 (Nat.lt_irrefl _)
      · apply hb.2
        rw [h2, h1]
        simp

theorem Sim.keepsAll : ∀ (ls : List (Str × ET)) {D : Sections} {st st' : PState} {ns : List NLExpression}, D.Sim st → D.Plain → (∀ l ∈ ls, l.2.wf) → D.Fits ls →
    linesEff ls st = .ok (st', ns) → ∀ {x : List Key × VT}, x ∈ D.vals → ∀ {s : List Key} {t : VT}, PathWf (x.1 ++ s) → x.2.part s = some t → ∀ {c : Addr},
    KP st.map (x.1 ++ s) = some ⟨some c, t.children⟩ → KP st'.map (x.1 ++ s) = some ⟨some c, t.children⟩
  | [], D, st, st', ns, _, _, _, _, he, _, _, _, _, _, _, _, hc => by
    simp [Tomllib.linesEff] at he
    rw [← he.1]; exact hc
  | (nl, e) :: ls, D, st, st', ns, h, hp, hw, hf, he, x, hx, s, t, hs, ht, c, hc => by
    obtain ⟨st1, e1, h1⟩ := (h.lines (nlCount nl)).line (hw (nl, e) (by simp)) hf.1
    have hp1 := hp.step hf.1
    have hk := Sim.keepsVals (h.lines (nlCount nl)) (hw (nl, e) (by simp)) hf.1 e1 h1 hp1 hx hs ht hc
    rw [Tomllib.linesEff, e1, Out.bind, Out.bind_ok] at he
    obtain ⟨⟨s2, n2⟩, e2, he⟩ := he
    simp at he
    rw [← he.1]
    refine Sim.keepsAll ls h1 hp1 (fun l hl => hw l (by simp [hl])) hf.2 e2 ?_ hs ht hk
    cases e with
    | blank w => exact hx
    | comment w c => exact hx
    | kv w1 k s v w2 c => simp [step, hx]
    | table w1 t w2 c => cases t <;> exact hx

/-- The links of a document that has been read. -/
theorem Sim.links : ∀ (ls : List (Str × ET)) {D : Sections} {st st' : PState} {ns : List NLExpression}, D.Sim st → D.Plain → (∀ l ∈ ls, l.2.wf) → D.Fits ls →
    linesEff ls st = .ok (st', ns) → Links st'.heap (KP st'.map) D ls ns
  | [], _, _, _, _, _, _, _, _, _ => trivial
  | (nl, e) :: ls, D, st, st', ns, h, hp, hw, hf, he => by
    obtain ⟨st1, e1, h1⟩ := (h.lines (nlCount nl)).line (hw (nl, e) (by simp)) hf.1
    have hp1 := hp.step hf.1
    rw [Tomllib.linesEff, e1, Out.bind, Out.bind_ok] at he
    obtain ⟨⟨s2, n2⟩, e2, he⟩ := he
    simp at he
    obtain ⟨rfl, rfl⟩ := he
    have hwl : ∀ l ∈ ls, l.2.wf := fun l hl => hw l (by simp [hl])
    refine ⟨?_, Sim.links ls h1 hp1 hwl hf.2 e2⟩
    cases e with
    | blank w => trivial
    | comment w c => trivial
    | table w1 t w2 c => trivial
    | kv w1 k s v w2 c =>
      rintro kv hkv
      cases hkv
      intro s' t hs' ht
      have hwe := hw _ (List.mem_cons_self ..)
      rw [ET.wf] at hwe
      obtain ⟨st1', g1, _, g3⟩ := (h.lines (nlCount nl)).kv (w1 := w1) (s := s) (w2 := w2) (c := c) hwe.2.1 hwe.2.2.2.1 hf.1.1 (VT.sound_distinct _ hf.1.2)
      rw [e1] at g1
      simp at g1
      subst g1
      obtain ⟨l, fp, a1, a2, _⟩ := linesEff_rep e2
      have hheap : st1.heap = st.heap ++ v.cells st.heap.length := by
        rw [ET.eff, Out.bind_ok] at e1
        obtain ⟨st0, b1, b2⟩ := e1
        rw [keyvalAct_heap b2, VT.eff_heap _ _ _ b1]; rfl
      obtain ⟨c0, b1, b2⟩ := VT.slot_reach v st.heap l s' ht
      refine ⟨c0, ?_, ?_⟩
      · rw [a1, hheap]; exact b1
      · have hK := g3 (D.here ++ [.str k] ++ s') hs'
        rw [if_pos (List.prefix_append _ _), List.drop_left] at hK
        exact Sim.keepsAll ls h1 hp1 hwl hf.2 e2 (x := (D.here ++ [.str k], v)) (by simp [step]) hs' ht (hK.trans b2)

end Sections
end Tomllib
