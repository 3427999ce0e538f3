import Verif.Lemmas.HistRead
import Verif.Lemmas.HistSet
/-!
# Histories keep the invariant
-/

namespace Tomllib

open Sections

mutual
theorem VT.part_keys : ∀ (t : VT) (q : List Key), t.wf → t.part q ≠ none → ∀ k, Key.str k ∈ q → KeyWf k
  | t, [], _, _, k, hk => by simp at hk
  | .leaf s, .str k :: q, _, hp, _, _ => absurd rfl hp
  | .leaf s, .idx k :: q, _, hp, _, _ => absurd rfl hp
  | .arr _ _ _, .str k :: q, _, hp, _, _ => absurd rfl hp
  | .itab _ _, .idx k :: q, _, hp, _, _ => absurd rfl hp
  | .arr es c1 c2, .idx i :: q, h, hp, k, hk => by
    simp at hk
    exact Elems.part_keys es i q h.2.1 hp k hk
  | .itab kvs ws, .str i :: q, h, hp, k, hk => by
    exact Pairs.part_keys kvs i q h.2 hp k (by simpa using hk)
theorem Elems.part_keys : ∀ (t : Elems) (i : Nat) (q : List Key), t.wf → t.part i q ≠ none → ∀ k, Key.str k ∈ q → KeyWf k
  | .nil, _, _, _, hp, _, _ => absurd rfl hp
  | .cons v _ _ _, 0, q, h, hp, k, hk => VT.part_keys v q h.1 (by simpa [Elems.part] using hp) k hk
  | .cons _ _ _ s, i + 1, q, h, hp, k, hk => Elems.part_keys s i q h.2.2.2 (by simpa [Elems.part] using hp) k hk
theorem Pairs.part_keys : ∀ (t : Pairs) (i : Str) (q : List Key), t.wf → t.part i q ≠ none → ∀ k, k = i ∨ Key.str k ∈ q → KeyWf k
  | .nil, _, _, _, hp, _, _ => absurd rfl hp
  | .cons k' _ v _ _ s, i, q, h, hp, k, hk => by
    rw [Pairs.part] at hp
    split at hp
    next e =>
      rcases hk with rfl | hk
      · rw [← e]; exact h.1
      · exact VT.part_keys v q h.2.2.1 hp k hk
    · exact Pairs.part_keys s i q h.2.2.2.2.2 hp k hk
end

theorem Sections.newVals_wf : ∀ (ls : List (Str × ET)) (D : Sections), (∀ l ∈ ls, l.2.wf) → ∀ e ∈ D.newVals ls, e.2.wf
  | [], _, _, e, he => by simp [newVals] at he
  | (nl, .blank w) :: ls, D, h, e, he => newVals_wf ls _ (fun l hl => h l (by simp [hl])) e he
  | (nl, .comment w c) :: ls, D, h, e, he => newVals_wf ls _ (fun l hl => h l (by simp [hl])) e he
  | (nl, .table w1 t w2 c) :: ls, D, h, e, he => newVals_wf ls _ (fun l hl => h l (by simp [hl])) e he
  | (nl, .kv w1 k s v w2 c) :: ls, D, h, e, he => by
    rw [newVals, List.mem_cons] at he
    rcases he with rfl | he
    · have := h (nl, .kv w1 k s v w2 c) (by simp)
      rw [ET.wf] at this
      exact this.2.2.2.1
    · exact newVals_wf ls _ (fun l hl => h l (by simp [hl])) e he

/-- A document that has been read. -/
theorem Hist.read {ls : List (Str × ET)} (hs : DocTaken ls) (hf : Sections.Fits {} ls) {p : Parser} {r : ParseResult} (h : Parser.new.parse (linesText ls) = .ok (p, r)) :
    ∃ fp, Hist ls p fp := by
  obtain ⟨st, es, e, hsim⟩ := Sections.Fits.linesEff hs.wf hf
  have hp := parse_fwd hs
  rw [e, h] at hp
  simp only [Out.bind] at hp
  simp only [Out.ok.injEq, Prod.mk.injEq] at hp
  obtain ⟨rfl, _⟩ := hp
  have hinv := (Reachable.new.parse h).inv.inv
  obtain ⟨l, fp, h1, h2, h3, h4, h5⟩ := linesEff_rep e
  refine ⟨fp, ⟨⟨hinv, h2, h3, by rintro rfl; exact hs⟩, ?_⟩, hsim.only, hsim.good, Plain.read hf, ?_, ?_⟩
  · intro k a ha
    exact h5 a (by simp [PState.new]) (hinv.map.lt k a ha)
  · exact Sim.links ls Sim.new ⟨by simp, by simp, by simp [count], by simp⟩ hs.wf.lines hf e
  · intro r hr
    obtain ⟨t, ht⟩ := Option.ne_none_iff_exists'.mp hr
    obtain ⟨e, s, he, rfl, h6⟩ := valueAt_entry ht
    have hw := hsim.good.wf e.1 (.inl ⟨e, he, rfl⟩)
    have hk : e.1 ≠ [] := by
      obtain ⟨b, k, h7, _⟩ := (Plain.read hf).keyed e he
      rw [h7]; simp
    rw [vals_read] at he
    exact hw.append hk (VT.part_keys e.2 s (newVals_wf ls _ hs.wf.lines e he) (by rw [h6]; simp))

/-- A refused assignment. -/
theorem Hist.refused {ls : List (Str × ET)} {p p' : Parser} {fp : List Addr} (h : Hist ls p fp) {k : Str} {v : Value}
    (hw : p.getValue k = .ok none ∨ ∃ w, p.getValue k = .ok (some w) ∧ w.scalar?.isSome = true) (hs : p.setValue k v = .ok (p', false)) : Hist ls p' fp := by
  rcases hw with hw | ⟨w, hw, hsc⟩
  · have hn := h.anch.inv.getValue_none.mp hw
    have : p' = p := by
      unfold Parser.setValue at hs
      split at hs
      next hg => simp [valOf, hg] at hn
      · simp at hs; exact hs.symm
    rw [this]; exact h
  · have hA := h.anch.refused hs
    rcases setValue_false hs with ⟨_, rfl⟩ | ⟨subs, l, hsub, hl, _, rfl⟩
    · exact h
    · obtain ⟨a, t, f, ha, ht, rfl⟩ := h.anch.inv.of_getValue hw
      obtain ⟨c, hg⟩ := valOf_some.mp ha
      obtain ⟨r, hr, rfl⟩ := h.only k (by rw [hg]; simp)
      have hg' : KP p.st.map r = some ⟨some a, c⟩ := hg
      have hval : (Sections.read ls).valueAt r ≠ none := by
        intro hno
        by_cases hc : (Sections.read ls).count r = none
        · by_cases hta : (Sections.read ls).isTable r
          · obtain ⟨v', l, e1, e2, e3, e4⟩ := (h.good.slot r hr).tab hta
            rw [hg'] at e1
            cases e1
            by_cases hh : r ∈ (Sections.read ls).heads
            · obtain ⟨a', e5, e6⟩ := e3 hh
              cases e5
              exact Rep.notTable ht e6
            · have := e4 hh
              simp at this
          · have := (h.good.slot r hr).none hno hc hta
            rw [hg'] at this; simp at this
        · obtain ⟨n, hn⟩ := Option.ne_none_iff_exists'.mp hc
          have := (h.good.slot r hr).arr n hn
          rw [hg'] at this; simp at this
      obtain ⟨t1, ht1⟩ := Option.ne_none_iff_exists'.mp hval
      obtain ⟨a', fp', g1, g2⟩ := (h.good.slot r hr).val t1 ht1
      rw [hg'] at g1
      cases g1
      have hleaf : t1.children = .count 0 := by
        cases t1 with
        | leaf s => rfl
        | arr es c1 c2 =>
          obtain ⟨_, _, g3, _⟩ := g2
          cases t with
          | leaf s => have := ht.1; rw [g3] at this; cases s <;> simp [Scalar.cell] at this
          | arr => simp [VT.value, Value.scalar?] at hsc
          | itab => simp [VT.value, Value.scalar?] at hsc
        | itab es c1 =>
          obtain ⟨_, _, g3, _⟩ := g2
          cases t with
          | leaf s => have := ht.1; rw [g3] at this; cases s <;> simp [Scalar.cell] at this
          | arr => simp [VT.value, Value.scalar?] at hsc
          | itab => simp [VT.value, Value.scalar?] at hsc
      rw [hleaf] at hg
      rw [allSubkeys_none hg] at hsub
      simp at hsub
      subst hsub
      have hcell : ∀ c ∈ fp, (p.st.heap ++ l)[c]? = p.st.heap[c]? := by
        intro c hc
        refine List.getElem?_append_left ?_
        cases hgc : p.st.heap[c]? with
        | some y => exact (List.getElem?_eq_some_iff.mp hgc).1
        | none =>
          exfalso
          obtain ⟨G⟩ := h.anch.rep.focus hc
          have := G.sub_rep
          cases hsb : G.sub with
          | leaf s => rw [hsb] at this; have := this.1; rw [hgc] at this; simp at this
          | arr => rw [hsb] at this; obtain ⟨_, _, h1, _⟩ := this; rw [hgc] at h1; simp at h1
          | itab => rw [hsb] at this; obtain ⟨_, _, h1, _⟩ := this; rw [hgc] at h1; simp at h1
      refine ⟨hA, h.only, ⟨fun q hq => ⟨?_, (h.good.slot q hq).arr, ?_, (h.good.slot q hq).none⟩, h.good.closed, h.good.wf, h.good.nwf, h.good.pos⟩, h.plain,
        h.links.congr h.anch.rep hcell (fun _ _ _ _ => rfl), h.vwf⟩
      · intro t1 ht1
        obtain ⟨a', f', g1, g2⟩ := (h.good.slot q hq).val t1 ht1
        exact ⟨a', f', g1, g2.append l⟩
      · intro hta
        obtain ⟨v', l', e1, e2, e3, e4⟩ := (h.good.slot q hq).tab hta
        refine ⟨v', l', e1, e2, fun hh => ?_, e4⟩
        obtain ⟨a', e5, e6⟩ := e3 hh
        refine ⟨a', e5, ?_⟩
        show (p.st.heap ++ l)[a']? = _
        rw [List.getElem?_append_left (List.getElem?_eq_some_iff.mp e6).1, e6]

/-- The assignments of a history. -/
theorem Hist.assign {ls : List (Str × ET)} {p : Parser} {fp : List Addr} (h : Hist ls p fp) (hP : PInv p) {q : List Key} (hq : PathWf q) {t : VT}
    (ht : (Sections.read ls).valueAt q = some t) {v : Value} (hv : v.deepValid = true) (hc : Assignable t v) :
    ∃ p', p.setValue (keyOf [] q) v = .ok (p', true) ∧ ∃ fp', Hist (putLines {} q (t.assigned v) ls) p' fp' := by
  unfold VT.assigned
  by_cases hsame : t.value.sameShape v = true
  · rw [if_pos hsame]
    obtain ⟨p', h1, h2⟩ := h.same hq ht (v := v) (by rw [VT.fits_eq, hsame]; exact hv)
    exact ⟨p', h1, fp, h2⟩
  · rw [if_neg hsame]
    have hf : t.fits v = false := by
      rw [VT.fits_eq, Bool.eq_false_iff.mpr hsame]; rfl
    rcases hc with hc | ⟨vs, rfl, hsc⟩ | ⟨vs, kvs, ws, rfl, rfl, h1, h2, h3⟩
    · exact absurd hc hsame
    · exact h.array hP ht hv hsc hf
    · refine h.table hP ht hv ?_ hf h1 h2 (fun w hw => (h3 w hw).1)
      intro w hw
      obtain ⟨e, he, rfl⟩ := List.mem_map.mp hw
      exact (h3 e he).2

/-- Properly written documents are lines of a text. -/
theorem History.taken {P : VT → Prop} {ls : List (Str × ET)} {p : Parser} (h : History DocStrict P ls p) : History DocTaken P ls p := by
  induction h with
  | read hs hf h => exact .read hs.taken hf h
  | assign _ hq ht hv hc hx h ih => exact .assign ih hq ht hv hc hx h
  | refused _ hw h ih => exact .refused ih hw h

theorem History.reachable {P : VT → Prop} {ls : List (Str × ET)} {p : Parser} (h : History DocTaken P ls p) : Reachable p := by
  induction h with
  | read _ _ h => exact .parse .new h
  | assign _ _ _ _ _ _ h ih => exact .set ih h
  | refused _ _ h ih => exact .set ih h

/-- Histories keep the invariant. -/
theorem History.hist {P : VT → Prop} {ls : List (Str × ET)} {p : Parser} (h : History DocTaken P ls p) : ∃ fp, Hist ls p fp := by
  induction h with
  | read hs hf h => exact Hist.read hs hf h
  | assign hp hq ht hv hc _ h ih =>
    obtain ⟨fp, ih⟩ := ih
    obtain ⟨p', h1, h2⟩ := ih.assign hp.reachable.inv hq ht hv hc
    rw [h] at h1
    simp at h1
    rw [h1.1]
    exact h2
  | refused _ hw h ih =>
    obtain ⟨fp, ih⟩ := ih
    exact ⟨fp, ih.refused hw h⟩

/-! ## What is elsewhere -/

mutual
theorem VT.put_apart : ∀ (t : VT) (r s : List Key) (x : VT), ¬ r <+: s → ¬ s <+: r → (t.put r x).part s = t.part s
  | t, [], s, x, h, _ => absurd (List.nil_prefix) h
  | t, k :: r, [], x, _, h => absurd (List.nil_prefix) h
  | .leaf _, .str _ :: _, _ :: _, _, _, _ => rfl
  | .leaf _, .idx _ :: _, _ :: _, _, _, _ => rfl
  | .arr _ _ _, .str _ :: _, _ :: _, _, _, _ => rfl
  | .itab _ _, .idx _ :: _, _ :: _, _, _, _ => rfl
  | .arr es c1 c2, .idx i :: q, .str k :: s, x, _, _ => rfl
  | .itab es c1, .str i :: q, .idx k :: s, x, _, _ => rfl
  | .arr es c1 c2, .idx i :: q, .idx j :: s, x, h, h' => by
    rw [VT.put, VT.part, VT.part]
    exact Elems.put_apart es i q j s x (fun ⟨h1, h2⟩ => h (by rw [h1, List.cons_prefix_cons]; exact ⟨rfl, h2⟩))
      (fun ⟨h1, h2⟩ => h' (by rw [h1, List.cons_prefix_cons]; exact ⟨rfl, h2⟩))
  | .itab es c1, .str i :: q, .str j :: s, x, h, h' => by
    rw [VT.put, VT.part, VT.part]
    exact Pairs.put_apart es i q j s x (fun ⟨h1, h2⟩ => h (by rw [h1, List.cons_prefix_cons]; exact ⟨rfl, h2⟩))
      (fun ⟨h1, h2⟩ => h' (by rw [h1, List.cons_prefix_cons]; exact ⟨rfl, h2⟩))
theorem Elems.put_apart : ∀ (t : Elems) (i : Nat) (r : List Key) (j : Nat) (s : List Key) (x : VT), ¬ (i = j ∧ r <+: s) → ¬ (i = j ∧ s <+: r) →
    (t.put i r x).part j s = t.part j s
  | .nil, _, _, _, _, _, _, _ => rfl
  | .cons v _ _ r, 0, q, 0, s, x, h, h' => by
    rw [Elems.put, Elems.part, Elems.part]
    exact VT.put_apart v q s x (fun h1 => h ⟨rfl, h1⟩) (fun h1 => h' ⟨rfl, h1⟩)
  | .cons v _ _ r, 0, q, j + 1, s, x, _, _ => rfl
  | .cons v _ _ r, i + 1, q, 0, s, x, _, _ => rfl
  | .cons v _ _ r, i + 1, q, j + 1, s, x, h, h' => by
    rw [Elems.put, Elems.part, Elems.part]
    exact Elems.put_apart r i q j s x (fun h1 => h ⟨by rw [h1.1], h1.2⟩) (fun h1 => h' ⟨by rw [h1.1], h1.2⟩)
theorem Pairs.put_apart : ∀ (t : Pairs) (i : Str) (r : List Key) (j : Str) (s : List Key) (x : VT), ¬ (i = j ∧ r <+: s) → ¬ (i = j ∧ s <+: r) →
    (t.put i r x).part j s = t.part j s
  | .nil, _, _, _, _, _, _, _ => rfl
  | .cons k _ v _ _ r, i, q, j, s, x, h, h' => by
    rw [Pairs.put]
    split
    next hk =>
      rw [Pairs.part, Pairs.part]
      split
      next hj => exact VT.put_apart v q s x (fun h1 => h ⟨hk.symm.trans hj, h1⟩) (fun h1 => h' ⟨hk.symm.trans hj, h1⟩)
      · rfl
    next hk =>
      rw [Pairs.part, Pairs.part]
      split
      · rfl
      · exact Pairs.put_apart r i q j s x h h'
end

theorem Sections.valueAt_put_apart {D : Sections} (hp : D.vals.Pairwise Sections.Apart) {q : List Key} (x : VT) {p : List Key} (h : ¬ q <+: p) (h' : ¬ p <+: q) :
    valueAt { D with vals := putVals q x D.vals } p = D.valueAt p := by
  by_cases he : ∃ e ∈ D.vals, e.1 <+: p
  · obtain ⟨e, he, s, rfl⟩ := he
    rw [valueAt_apart hp he]
    have h1 := mem_putVals (q := q) (x := x) hp he
    have := valueAt_apart (D := { D with vals := putVals q x D.vals }) (apart_fst (putVals_fst _ _ _) hp) h1 s
    rw [this]
    dsimp only
    split
    next h2 =>
      obtain ⟨r, rfl⟩ := List.isPrefixOf_iff_prefix.mp h2
      rw [List.drop_left]
      exact VT.put_apart _ _ _ _ (fun h3 => h ((List.prefix_append_right_inj _).mpr h3)) (fun h3 => h' ((List.prefix_append_right_inj _).mpr h3))
    · rfl
  · have := valueAt_put_off hp (q := q) x h
    have h0 : D.valueAt p = none := valueAt_none.mpr fun e h1 h2 => absurd ⟨e, h1, h2⟩ he
    rw [h0] at this ⊢
    generalize valueAt { D with vals := putVals q x D.vals } p = o at this
    cases o with
    | none => rfl
    | some t => exact this.elim

theorem VT.assigned_value {t : VT} {v : Value} (hv : v.deepValid = true) : (t.assigned v).value = v := by
  unfold VT.assigned
  split
  next h => exact (VT.replace_value t v (by rw [VT.fits_eq, h]; exact hv)).1
  · exact v.fresh_value

end Tomllib
