import Verif.Lemmas.Hist
import Verif.Lemmas.Session
/-!
# Assignments keep the invariant
-/

namespace Tomllib

open Sections

theorem Links.entry {h : Heap} {K : List Key → Option HashValue} : ∀ {ls : List (Str × ET)} {ns : List NLExpression} {f : List Addr} {D : Sections},
    Links h K D ls ns → LinesRep h ls ns f → ∀ e ∈ D.newVals ls, ∃ a, Linked h K e.1 e.2 a
  | [], _, _, _, _, _, e, he => by simp [Sections.newVals] at he
  | _ :: _, [], _, _, hl, _, _, _ => hl.elim
  | (nl, .blank w) :: ls, n :: ns, f, D, hl, hr, e, he => by
    obtain ⟨x, ns', f1, f2, e', h1, h2, rfl⟩ := hr
    cases e'
    exact Links.entry hl.2 h2 e he
  | (nl, .comment w c) :: ls, n :: ns, f, D, hl, hr, e, he => by
    obtain ⟨x, ns', f1, f2, e', h1, h2, rfl⟩ := hr
    cases e'
    exact Links.entry hl.2 h2 e he
  | (nl, .table w1 t w2 c) :: ls, n :: ns, f, D, hl, hr, e, he => by
    obtain ⟨x, ns', f1, f2, e', h1, h2, rfl⟩ := hr
    cases e'
    exact Links.entry hl.2 h2 e he
  | (nl, .kv w1 k s v w2 c) :: ls, n :: ns, f, D, hl, hr, e, he => by
    obtain ⟨x, ns', f1, f2, e', h1, h2, rfl⟩ := hr
    cases e'
    rw [Sections.newVals, List.mem_cons] at he
    rcases he with rfl | he
    · obtain ⟨a, h3, _⟩ := h1
      exact ⟨a, hl.1 _ (by rw [h3])⟩
    · exact Links.entry hl.2 h2 e he

/-- The parts of the value at a path have the entries of the cells below its cell. -/
theorem Hist.linked {ls : List (Str × ET)} {p : Parser} {fp : List Addr} (h : Hist ls p fp) {q : List Key} (hq : PathWf q) {t : VT}
    (hv : (Sections.read ls).valueAt q = some t) {b : Addr} (hk : KP p.st.map q = some ⟨some b, t.children⟩) : Linked p.st.heap (KP p.st.map) q t b := by
  obtain ⟨e, r, he, rfl, ht⟩ := valueAt_entry hv
  rw [vals_read] at he
  obtain ⟨a, ha⟩ := h.links.entry h.anch.rep e he
  obtain ⟨c, h1, h2⟩ := ha r t hq ht
  rw [hk] at h2
  cases h2
  intro s t' hw ht'
  rw [List.append_assoc] at hw ⊢
  obtain ⟨c', h3, h4⟩ := ha (r ++ s) t' hw (by rw [VT.part_append, ht]; exact ht')
  rw [reach_append, h1] at h3
  exact ⟨c', h3, h4⟩

theorem Hist.ne {ls : List (Str × ET)} {p : Parser} {fp : List Addr} (h : Hist ls p fp) {q : List Key} {t : VT}
    (hv : (Sections.read ls).valueAt q = some t) : q ≠ [] := by
  rintro rfl
  exact h.good.off h.plain (q := []) trivial hv (p := []) (.inr (.inl rfl)) (List.prefix_refl _)

theorem Hist.below {ls : List (Str × ET)} {p : Parser} {fp : List Addr} (h : Hist ls p fp) {q : List Key} {t : VT}
    (hv : (Sections.read ls).valueAt q = some t) (s : List Key) : (Sections.read ls).valueAt (q ++ s) = t.part s := by
  obtain ⟨e, r, he, rfl, ht⟩ := valueAt_entry hv
  rw [List.append_assoc, valueAt_apart h.apart he, VT.part_append, ht]; rfl

/-- Nothing is below a value but its parts. -/
theorem Hist.noKey {ls : List (Str × ET)} {p : Parser} {fp : List Addr} (h : Hist ls p fp) {q : List Key} (hq : PathWf q) {t : VT}
    (hv : (Sections.read ls).valueAt q = some t) {s : List Key} (hs : PathWf (q ++ s)) (hn : t.part s = none) : KP p.st.map (q ++ s) = none := by
  refine (h.good.slot _ hs).none (by rw [h.below hv]; exact hn) ?_ ?_
  · cases hc : (Sections.read ls).count (q ++ s) with
    | none => rfl
    | some n => exact absurd (List.prefix_append _ _) (h.good.off h.plain hq hv (p := q ++ s) (.inl (by rw [hc]; simp)))
  · intro ht
    exact absurd (List.prefix_append _ _) (h.good.off h.plain hq hv (p := q ++ s) (.inr ht))

/-! ## Values of the same structure -/

mutual
theorem VT.replace_alike : ∀ (t : VT) (v : Value), t.fits v = true → ∀ s, Alike ((t.replace v).part s) (t.part s)
  | .leaf s, v, hf, q => by
    rw [VT.replace]
    split
    · cases q with
      | nil => rw [VT.part_nil, VT.part_nil]; rfl
      | cons k q => cases k <;> exact trivial
    · exact Alike.refl _
  | .arr es c1 c2, .arr vs, hf, q => by
    rw [VT.replace]
    have hf' : es.fits vs = true := hf
    match q with
    | [] => rw [VT.part_nil, VT.part_nil]; simp [Alike, VT.children, Elems.replace_kinds es vs]
    | .str k :: q => exact trivial
    | .idx i :: q => exact Elems.replace_alike es vs hf' i q
  | .itab kvs ws, .itab vs, hf, q => by
    rw [VT.replace]
    have hf' : kvs.fits vs = true := hf
    match q with
    | [] => rw [VT.part_nil, VT.part_nil]; simp [Alike, VT.children, Pairs.replace_keys kvs vs]
    | .idx k :: q => exact trivial
    | .str i :: q => exact Pairs.replace_alike kvs vs hf' i q
  | .arr _ _ _, .int _, _, _ => Alike.refl _
  | .arr _ _ _, .float _, _, _ => Alike.refl _
  | .arr _ _ _, .bool _, _, _ => Alike.refl _
  | .arr _ _ _, .dt _, _, _ => Alike.refl _
  | .arr _ _ _, .str _ _, _, _ => Alike.refl _
  | .arr _ _ _, .itab _, _, _ => Alike.refl _
  | .itab _ _, .int _, _, _ => Alike.refl _
  | .itab _ _, .float _, _, _ => Alike.refl _
  | .itab _ _, .bool _, _, _ => Alike.refl _
  | .itab _ _, .dt _, _, _ => Alike.refl _
  | .itab _ _, .str _ _, _, _ => Alike.refl _
  | .itab _ _, .arr _, _, _ => Alike.refl _
theorem Elems.replace_alike : ∀ (t : Elems) (vs : List Value), t.fits vs = true → ∀ i s, Alike ((t.replace vs).part i s) (t.part i s)
  | .nil, _, _, _, _ => Alike.refl _
  | .cons v _ _ r, [], _, _, _ => Alike.refl _
  | .cons v _ _ r, w :: vs, hf, 0, s => by
    rw [Elems.fits, Bool.and_eq_true] at hf
    rw [Elems.replace, Elems.part, Elems.part]
    exact VT.replace_alike v w hf.1 s
  | .cons v _ _ r, w :: vs, hf, i + 1, s => by
    rw [Elems.fits, Bool.and_eq_true] at hf
    rw [Elems.replace, Elems.part, Elems.part]
    exact Elems.replace_alike r vs hf.2 i s
theorem Pairs.replace_alike : ∀ (t : Pairs) (vs : List (Str × Value)), t.fits vs = true → ∀ i s, Alike ((t.replace vs).part i s) (t.part i s)
  | .nil, _, _, _, _ => Alike.refl _
  | .cons _ _ v _ _ r, [], _, _, _ => Alike.refl _
  | .cons k _ v _ _ r, (k', w) :: vs, hf, i, s => by
    rw [Pairs.fits, Bool.and_eq_true, Bool.and_eq_true] at hf
    rw [Pairs.replace, Pairs.part, Pairs.part]
    split
    · exact VT.replace_alike v w hf.2.1 s
    · exact Pairs.replace_alike r vs hf.2.2 i s
theorem Elems.replace_kinds : ∀ (t : Elems) (vs : List Value), (t.replace vs).kinds.length = t.kinds.length
  | .nil, _ => rfl
  | .cons v _ _ r, [] => rfl
  | .cons v _ _ r, w :: vs => by simp [Elems.replace, Elems.kinds, Elems.replace_kinds r vs]
theorem Pairs.replace_keys : ∀ (t : Pairs) (vs : List (Str × Value)), (t.replace vs).keys = t.keys
  | .nil, _ => rfl
  | .cons _ _ v _ _ r, [] => rfl
  | .cons k _ v _ _ r, (k', w) :: vs => by simp [Pairs.replace, Pairs.keys, Pairs.replace_keys r vs]
end

/-- The cells of a heap that differs in scalars only are reached the same way. -/
theorem Agree.reach {h h' : Heap} (ha : Agree h h') : ∀ (s : List Key) {a c : Addr}, reach h a s = some c → Tomllib.reach h' a s = some c
  | [], _, _, hr => hr
  | .idx i :: s, a, c, hr => by
    rw [Tomllib.reach] at hr
    split at hr
    next e =>
      rw [Tomllib.reach, ha.arr e]
      dsimp only
      split at hr
      · exact Agree.reach ha s hr
      · simp at hr
    · simp at hr
  | .str i :: s, a, c, hr => by
    rw [Tomllib.reach] at hr
    split at hr
    next e =>
      rw [Tomllib.reach, ha.itab e]
      dsimp only
      split at hr
      · exact Agree.reach ha s hr
      · simp at hr
    · simp at hr

theorem KP_key {m : KMap} {q : List Key} (hq : q ≠ []) : KP m q = m.get? (keyOf [] q) := by rw [KP, parP_ne hq]

theorem Hist.keyed {ls : List (Str × ET)} {p : Parser} {fp : List Addr} (h : Hist ls p fp) {q : List Key} {t : VT} (hv : (Sections.read ls).valueAt q = some t)
    {b : Addr} (hk : KP p.st.map q = some ⟨some b, t.children⟩) : p.st.map.get? (keyOf [] q) = some ⟨some b, t.children⟩ := by
  rw [← KP_key (h.ne hv)]; exact hk

theorem Hist.notTable {ls : List (Str × ET)} {p : Parser} {fp : List Addr} (h : Hist ls p fp) {c : Addr} (hc : c ∈ fp) : p.st.heap[c]? ≠ some .table := by
  obtain ⟨G⟩ := h.anch.rep.focus hc
  exact Rep.notTable G.sub_rep

/-- A value of the same structure is assigned. -/
theorem Hist.same {ls : List (Str × ET)} {p : Parser} {fp : List Addr} (h : Hist ls p fp) {q : List Key} (hq : PathWf q) {t : VT}
    (hv : (Sections.read ls).valueAt q = some t) {v : Value} (hf : t.fits v = true) :
    ∃ p', p.setValue (keyOf [] q) v = .ok (p', true) ∧ Hist (putLines {} q (t.replace v) ls) p' fp := by
  obtain ⟨b, F, rfl, hplug, H⟩ := h.focusAt hq hv
  have hg := h.keyed hv H.key
  have hb : valOf p.st.map (keyOf [] q) = some b := valOf_some.mpr ⟨_, hg⟩
  obtain ⟨h', e1, e2, e3, e4⟩ := h.anch.set_same hb F hf
  have hs : sameStructure p.st.heap b v = true := by rw [sameStructure_rep v F.sub_rep, hf]
  obtain ⟨h'', e5, hag⟩ := replaceValues_agree v hs (Agree.refl p.st.heap)
  have : h'' = h' := by
    have hset : p.setValue (keyOf [] q) v = .ok ({ p with st := { p.st with heap := h'' } }, true) := by
      unfold Parser.setValue
      simp only [hg, hs, Out.bind_eq, e5, Out.bind, if_true]
    rw [e1] at hset
    simp at hset
    exact hset.symm
  subst this
  refine ⟨_, e1, ?_⟩
  rw [hplug] at e2
  have hal := VT.replace_alike F.sub v hf
  have hlk := h.linked hq hv H.key
  refine h.exchange hq hv H e2 h.only rfl (fun _ _ _ => rfl) ?_ ?_ ?_ ?_ ?_
  · intro c hc
    refine e4.2 c (fun hm => ?_)
    have hnd := h.anch.nodup
    rw [F.fp_eq, List.nodup_append, List.nodup_append] at hnd
    obtain ⟨⟨n1, n2, n3⟩, n4, n5⟩ := hnd
    rw [List.mem_append] at hc
    rcases hc with hx | hx
    · exact n3 c hx c hm rfl
    · exact n5 c (by simp [hm]) c hx rfl
  · intro r c l _ _ _ hc
    refine (e4.2 c (fun hm => ?_)).trans hc
    exact h.notTable (by rw [F.fp_eq]; simp [hm]) hc
  · intro s t1 hw ht1
    have := hal s
    rw [ht1] at this
    cases ho : F.sub.part s with
    | none => rw [ho] at this; exact this.elim
    | some t0 =>
      rw [ho] at this
      obtain ⟨c, h1, h2⟩ := hlk s t0 hw ho
      have this : t1.children = t0.children := this
      exact ⟨c, hag.reach s h1, by rw [this]; exact h2⟩
  · intro s hw hn
    refine h.noKey hq hv hw ?_
    have := hal s
    rw [hn] at this
    cases ho : F.sub.part s with
    | none => rfl
    | some t0 => rw [ho] at this; exact this.elim
  · intro s hn
    refine h.vwf _ ?_
    rw [h.below hv]
    intro ho
    have := hal s
    rw [ho] at this
    cases h1 : (F.sub.replace v).part s with
    | none => exact hn h1
    | some t0 => rw [h1] at this; exact this.elim

/-! ## The keys below a value -/

theorem subkeysOf_mem {r : Str → Out (List Str)} : ∀ (ks : List Str) {l : List Str}, subkeysOf r ks = .ok l →
    ∀ x, x ∈ l ↔ ∃ k ∈ ks, x = k ∨ ∃ l', r k = .ok l' ∧ x ∈ l'
  | [], l, h, x => by simp [subkeysOf] at h; subst h; simp
  | k :: ks, l, h, x => by
    simp only [subkeysOf] at h
    split at h <;> try (simp at h; done)
    next l1 e1 =>
      split at h <;> simp at h
      next l2 e2 =>
        subst h
        rw [List.mem_cons, List.mem_append, subkeysOf_mem ks e2 x]
        constructor
        · rintro (rfl | hx | ⟨k', h1, h2⟩)
          · exact ⟨x, by simp, .inl rfl⟩
          · exact ⟨k, by simp, .inr ⟨l1, e1, hx⟩⟩
          · exact ⟨k', by simp [h1], h2⟩
        · rintro ⟨k', h1, h2⟩
          rw [List.mem_cons] at h1
          rcases h1 with rfl | h1
          · rcases h2 with rfl | ⟨l', h3, h4⟩
            · exact .inl rfl
            · rw [e1] at h3; simp at h3; subst h3
              exact .inr (.inl h4)
          · exact .inr (.inr ⟨k', h1, h2⟩)

theorem subkeysOf_each {r : Str → Out (List Str)} : ∀ (ks : List Str) {l : List Str}, subkeysOf r ks = .ok l → ∀ k ∈ ks, ∃ l', r k = .ok l'
  | [], _, _, k, hk => by simp at hk
  | k :: ks, l, h, x, hx => by
    simp only [subkeysOf] at h
    split at h <;> try (simp at h; done)
    next l1 e1 =>
      split at h <;> simp at h
      next l2 e2 =>
        rw [List.mem_cons] at hx
        rcases hx with rfl | hx
        · exact ⟨l1, e1⟩
        · exact subkeysOf_each ks e2 x hx

/-- The sub-keys of the key of a value are the keys of its parts. -/
theorem subkeys_parts {m : KMap} : ∀ (f : Nat) {q : List Key} {t : VT} {l : List Str}, PathWf q → q ≠ [] → (∀ s t', t.part s = some t' → ∃ c, KP m (q ++ s) = some ⟨some c, t'.children⟩) →
    (∀ s, t.part s ≠ none → PathWf (q ++ s)) → allSubkeysAt m f (keyOf [] q) = .ok l → ∀ x, x ∈ l ↔ ∃ s, s ≠ [] ∧ t.part s ≠ none ∧ x = keyOf [] (q ++ s)
  | 0, _, _, _, _, _, _, _, h => by simp [allSubkeysAt] at h
  | f + 1, q, t, l, hq, hne, hK, hw, h => by
    intro x
    obtain ⟨c, hc⟩ := hK [] t (VT.part_nil t)
    rw [List.append_nil, KP_key hne] at hc
    rw [allSubkeysAt, hc] at h
    dsimp only at h
    have hstr : ∀ k : Str, keyOf [] (q ++ [.str k]) = keyOf [] q ++ lit% "." ++ k := by
      intro k
      rw [keyOf_append, keyOf_rest _ (keyOf_ne_nil hq hne)]
      simp [restStr]
    have main : ∀ ks : List Str, subkeysOf (allSubkeysAt m f) ks = .ok l → (∀ y, y ∈ ks ↔ ∃ k, t.children.has k ∧ y = keyOf [] (q ++ [k])) →
        (x ∈ l ↔ ∃ s, s ≠ [] ∧ t.part s ≠ none ∧ x = keyOf [] (q ++ s)) := by
      intro ks hks hmem
      rw [subkeysOf_mem ks hks]
      have hrec : ∀ k t', t.part [k] = some t' → ∀ l', allSubkeysAt m f (keyOf [] (q ++ [k])) = .ok l' →
          ∀ x, x ∈ l' ↔ ∃ s, s ≠ [] ∧ t'.part s ≠ none ∧ x = keyOf [] ((q ++ [k]) ++ s) := by
        intro k t' hk l' hl' x
        have hpart : ∀ s, t.part (k :: s) = t'.part s := fun s => by
          rw [show k :: s = [k] ++ s from rfl, VT.part_append, hk]; rfl
        refine subkeys_parts f (hw [k] (by rw [hk]; simp)) (by simp) ?_ ?_ hl' x
        · intro s t'' hs
          have := hK (k :: s) t'' (by rw [hpart]; exact hs)
          rw [List.append_assoc]
          exact this
        · intro s hs
          have := hw (k :: s) (by rw [hpart]; exact hs)
          rw [List.append_assoc]
          exact this
      constructor
      · rintro ⟨y, hy, h2⟩
        obtain ⟨k, hk, rfl⟩ := (hmem y).mp hy
        obtain ⟨t', ht'⟩ := Option.ne_none_iff_exists'.mp ((VT.part_one t k).mpr hk)
        rcases h2 with rfl | ⟨l', h3, h4⟩
        · exact ⟨[k], by simp, by rw [ht']; simp, rfl⟩
        · obtain ⟨s, g1, g2, g3⟩ := (hrec k t' ht' l' h3 x).mp h4
          refine ⟨k :: s, by simp, ?_, by rw [g3, List.append_assoc]; rfl⟩
          rw [show k :: s = [k] ++ s from rfl, VT.part_append, ht']; exact g2
      · rintro ⟨s, g1, g2, g3⟩
        cases s with
        | nil => exact absurd rfl g1
        | cons k s =>
          rw [show k :: s = [k] ++ s from rfl, VT.part_append] at g2
          cases ht' : t.part [k] with
          | none => rw [ht'] at g2; exact absurd rfl g2
          | some t' =>
            rw [ht'] at g2
            have hk := (VT.part_one t k).mp (by rw [ht']; simp)
            have hy := (hmem _).mpr ⟨k, hk, rfl⟩
            refine ⟨_, hy, ?_⟩
            cases s with
            | nil => exact .inl g3
            | cons k2 s =>
              obtain ⟨l', hl'⟩ := subkeysOf_each ks hks _ hy
              exact .inr ⟨l', hl', (hrec k t' ht' l' hl' x).mpr ⟨k2 :: s, by simp, g2, by rw [g3, List.append_assoc]; rfl⟩⟩
    split at h
    next n e =>
      refine main _ h (fun y => ?_)
      rw [e]
      constructor
      · intro hy
        simp at hy
        obtain ⟨i, h1, rfl⟩ := hy
        exact ⟨.idx i, h1, by rw [keyOf_idx]⟩
      · rintro ⟨k, h1, rfl⟩
        cases k with
        | str k => exact h1.elim
        | idx i =>
          have h1 : i < n := h1
          rw [keyOf_idx]
          simp
          exact ⟨i, h1, rfl⟩
    next ks e =>
      refine main _ h (fun y => ?_)
      rw [e]
      constructor
      · intro hy
        simp only [List.mem_map] at hy
        obtain ⟨i, h1, rfl⟩ := hy
        exact ⟨.str i, h1, by rw [hstr]⟩
      · rintro ⟨k, h1, rfl⟩
        cases k with
        | idx k => exact h1.elim
        | str i =>
          have h1 : i ∈ ks := h1
          rw [hstr]
          exact List.mem_map_of_mem h1

theorem Hist.subs {ls : List (Str × ET)} {p : Parser} {fp : List Addr} (h : Hist ls p fp) {q : List Key} {t : VT} (hv : (Sections.read ls).valueAt q = some t)
    {b : Addr} (hk : KP p.st.map q = some ⟨some b, t.children⟩) {l : List Str} (hl : allSubkeys p.st.map (keyOf [] q) = .ok l) :
    ∀ x, x ∈ l ↔ ∃ s, s ≠ [] ∧ t.part s ≠ none ∧ x = keyOf [] (q ++ s) := by
  have hw : ∀ s, t.part s ≠ none → PathWf (q ++ s) := fun s hs => h.vwf _ (by rw [h.below hv]; exact hs)
  have hq := h.vwf q (by rw [hv]; simp)
  refine subkeys_parts _ hq (h.ne hv) (fun s t' hs => ?_) hw hl
  obtain ⟨c, _, h2⟩ := h.linked hq hv hk s t' (hw s (by rw [hs]; simp)) hs
  exact ⟨c, h2⟩

/-- An array or inline table of scalars is written in place of another value. -/
theorem Hist.graft {ls : List (Str × ET)} {p : Parser} {fp : List Addr} (h : Hist ls p fp) {q : List Key} {t : VT} (hv : (Sections.read ls).valueAt q = some t)
    {b : Addr} (hk : KP p.st.map q = some ⟨some b, t.children⟩) {v : Value} (hd : v.deepValid = true) (hsc : v.scalar? = none) (hf : t.fits v = false)
    {subs : List Str} (hsub : allSubkeys p.st.map (keyOf [] q) = .ok subs) {p' : Parser} {E : List (Str × Addr)} (hset : p.setValue (keyOf [] q) v = .ok (p', true))
    (hmap : p'.st.map = putAll ((eraseAll p.st.map subs).insert (keyOf [] q) ⟨some b, v.fresh.children⟩) E) (hheap : p'.st.heap = graftHeap p.st.heap b v)
    (hE1 : ∀ e ∈ E, ∃ k, e.1 = keyOf [] (q ++ [k]) ∧ PathWf (q ++ [k]) ∧ reach p'.st.heap b [k] = some e.2 ∧ ∃ s, v.fresh.part [k] = some (.leaf s))
    (hE2 : ∀ k, v.fresh.part [k] ≠ none → ∃ c s, v.fresh.part [k] = some (.leaf s) ∧ PathWf (q ++ [k]) ∧ reach p'.st.heap b [k] = some c ∧ (keyOf [] (q ++ [k]), c) ∈ E)
    (hE3 : (E.map (·.1)).Nodup) :
    ∃ fp', Hist (putLines {} q v.fresh ls) p' fp' := by
  have hq := h.vwf q (by rw [hv]; simp)
  have hne := h.ne hv
  obtain ⟨b', F, rfl, hplug, H⟩ := h.focusAt hq hv
  have : b' = b := by have := H.key; rw [hk] at this; cases this; rfl
  subst this
  have hg := h.keyed hv hk
  have hb : valOf p.st.map (keyOf [] q) = some b' := valOf_some.mpr ⟨_, hg⟩
  have hsubs := h.subs hv hk hsub
  have hkeyne : keyOf [] q ≠ [] := keyOf_ne_nil hq hne
  have hnd := h.anch.nodup
  rw [F.fp_eq, List.nodup_append, List.nodup_append] at hnd
  obtain ⟨⟨n1, n2, n3⟩, n4, n5⟩ := hnd
  have hlt := h.anch.inv.map.lt _ b' hb
  obtain ⟨rk, hr⟩ := h.anch.inv.rank
  obtain ⟨_, _, _, _, _, _, _, _, _, _, _, _, hoff⟩ := graft_spec hr hlt v
  have hbfb : b' ∈ F.fb := F.sub_rep.kids.1
  obtain ⟨g, hR⟩ := h.anch.set_vector hb F hf hsc hd hsub
  generalize rebuildAt _ _ _ _ _ _ = R at hR
  cases R with
  | fuel => exact hR.elim
  | panic x => have := hR.2; rw [hset] at this; simp at this
  | ok m =>
    obtain ⟨h1, _, h3, _⟩ := hR
    rw [hset] at h1
    simp at h1
    have htree : p'.tree = p.tree := by rw [h1]
    rw [← h1, hplug] at h3
    -- the keys of cells of the old value are below it
    have hA := h3 (fun k x hkx hx hxb => by
      obtain ⟨c0, hgk⟩ := valOf_some.mp hkx
      obtain ⟨r, hr, rfl⟩ := h.only k (by rw [hgk]; simp)
      have hgk : KP p.st.map r = some ⟨some x, c0⟩ := hgk
      have hnt := h.notTable (show x ∈ fp by rw [F.fp_eq]; simp [hx])
      -- the key stands for a value
      have hval : (Sections.read ls).valueAt r ≠ none := by
        intro hno
        by_cases hc : (Sections.read ls).count r = none
        · by_cases hta : (Sections.read ls).isTable r
          · obtain ⟨v', l, e1, e2, e3, e4⟩ := (h.good.slot r hr).tab hta
            rw [hgk] at e1
            cases e1
            by_cases hh : r ∈ (Sections.read ls).heads
            · obtain ⟨a, e5, e6⟩ := e3 hh
              cases e5
              exact hnt e6
            · have := e4 hh
              simp at this
          · have := (h.good.slot r hr).none hno hc hta
            rw [hgk] at this; simp at this
        · obtain ⟨n, hn⟩ := Option.ne_none_iff_exists'.mp hc
          have := (h.good.slot r hr).arr n hn
          rw [hgk] at this; simp at this
      obtain ⟨t1, ht1⟩ := Option.ne_none_iff_exists'.mp hval
      obtain ⟨e, s, he, rfl, hs⟩ := valueAt_entry ht1
      by_cases hpre : q <+: e.1 ++ s
      · obtain ⟨s', hs'⟩ := hpre
        rw [← hs'] at hgk ht1 ⊢
        have hs0 : s' ≠ [] := by
          rintro rfl
          rw [List.append_nil, hk] at hgk
          cases hgk
          exact hxb rfl
        rw [parP_ne (by simp [hne])]
        refine (hsubs _).mpr ⟨s', hs0, ?_, rfl⟩
        rw [← h.below hv, ht1]; simp
      · rw [vals_read] at he
        obtain ⟨c, hc1, hc2⟩ := H.others e he s t1 hs hr hpre
        rw [hgk] at hc2
        cases hc2
        rw [List.mem_append] at hc1
        rcases hc1 with hc1 | hc1
        · exact absurd rfl (n3 x hc1 x hx)
        · exact absurd rfl (n5 x (by simp [hx]) x hc1))
    have hflat : ∀ k k2 s, v.fresh.part (k :: k2 :: s) = none := by
      intro k k2 s
      rw [show k :: k2 :: s = [k] ++ (k2 :: s) from rfl, VT.part_append]
      cases hp : v.fresh.part [k] with
      | none => rfl
      | some t1 =>
        obtain ⟨c, s', g1, _⟩ := hE2 k (by rw [hp]; simp)
        rw [hp] at g1
        cases g1
        cases k2 <;> rfl
    have hEkey : ∀ e ∈ E, e.1 ≠ keyOf [] q := by
      intro e he hek
      obtain ⟨k, g1, g2, _⟩ := hE1 e he
      exact keyOf_not_below hq hne (q := [k]) (by simp) (hek.symm.trans g1)
    have hself : KP p'.st.map q = some ⟨some b', v.fresh.children⟩ := by
      rw [KP_key hne, hmap]
      apply putAll_some
      simp [SMap.get?_insert]
    have hbase : ∀ s, s ≠ [] → PathWf (q ++ s) → ((eraseAll p.st.map subs).insert (keyOf [] q) ⟨some b', v.fresh.children⟩).get? (keyOf [] (q ++ s)) = none := by
      intro s hs hw
      rw [SMap.get?_insert, if_neg (keyOf_not_below hq hne hs), eraseAll_get]
      split
      · rfl
      next hns =>
        rw [← KP_key (by simp [hne])]
        refine h.noKey hq hv hw ?_
        cases ho : F.sub.part s with
        | none => rfl
        | some t0 => exact absurd ((hsubs _).mpr ⟨s, hs, by rw [ho]; simp, rfl⟩) hns
    have hsep : ∀ s, PathWf (q ++ s) → s ≠ [] → v.fresh.part s = none → KP p'.st.map (q ++ s) = none := by
      intro s hw hs hn
      rw [KP_key (by simp [hne]), hmap, putAll_other, hbase s hs hw]
      intro e he hek
      obtain ⟨k, g1, g2, _, s', g4⟩ := hE1 e he
      have := keyOf_inj hw g2 (hek.symm.trans g1)
      have hsk : s = [k] := by simpa using this
      rw [hsk, g4] at hn
      simp at hn
    refine ⟨_, h.exchange hq hv H hA ?_ htree ?_ ?_ ?_ ?_ ?_ ?_⟩
    · -- only paths
      intro x hx
      rw [hmap] at hx
      by_cases hxE : ∃ e ∈ E, e.1 = x
      · obtain ⟨e, he, rfl⟩ := hxE
        obtain ⟨k, g1, g2, _⟩ := hE1 e he
        exact ⟨_, g2, by rw [g1, parP_ne (by simp)]⟩
      · rw [putAll_other E (fun e he hek => hxE ⟨e, he, hek⟩), SMap.get?_insert] at hx
        split at hx
        next e => exact ⟨q, hq, by rw [← e, parP_ne hne]⟩
        · rw [eraseAll_get] at hx
          split at hx
          · exact absurd rfl hx
          · exact h.only x hx
    · -- other paths
      intro r hr hpre
      have hrne : parP r ≠ keyOf [] q := by
        intro e
        rw [← parP_ne hne] at e
        exact hpre (by rw [parP_inj hr hq e]; exact List.prefix_refl q)
      have hbelow : ∀ s, PathWf (q ++ s) → keyOf [] (q ++ s) ≠ parP r := by
        intro s hw e
        rw [← parP_ne (by simp [hne])] at e
        exact hpre (by rw [← parP_inj hw hr e]; exact List.prefix_append _ _)
      unfold KP
      rw [hmap, putAll_other, SMap.get?_insert, if_neg (fun e => hrne e.symm), eraseAll_get, if_neg]
      · intro hm
        obtain ⟨s, _, g2, g3⟩ := (hsubs _).mp hm
        exact hbelow s (h.vwf _ (by rw [h.below hv]; exact g2)) g3.symm
      · intro e he hek
        obtain ⟨k, g1, g2, _⟩ := hE1 e he
        exact hbelow [k] g2 (g1.symm.trans hek)
    · intro c hc
      rw [hheap]
      have hcfp : c ∈ fp := by
        rw [F.fp_eq]
        rw [List.mem_append] at hc
        rcases hc with hc | hc <;> simp [hc]
      obtain ⟨G⟩ := h.anch.rep.focus hcfp
      refine hoff c ?_ ?_
      · have := G.sub_rep
        cases hgc : p.st.heap[c]? with
        | some y => exact (List.getElem?_eq_some_iff.mp hgc).1
        | none =>
          exfalso
          cases hsb : G.sub with
          | leaf s => rw [hsb] at this; have := this.1; rw [hgc] at this; simp at this
          | arr => rw [hsb] at this; obtain ⟨_, _, h1, _⟩ := this; rw [hgc] at h1; simp at h1
          | itab => rw [hsb] at this; obtain ⟨_, _, h1, _⟩ := this; rw [hgc] at h1; simp at h1
      · rintro rfl
        rw [List.mem_append] at hc
        rcases hc with hc | hc
        · exact n3 c hc c hbfb rfl
        · exact n5 c (by simp [hbfb]) c hc rfl
    · intro r c l hr hpre hK htb
      rw [hheap]
      refine (hoff c ((List.getElem?_eq_some_iff.mp htb).1) ?_).trans htb
      rintro rfl
      exact h.notTable (show c ∈ fp by rw [F.fp_eq]; simp [hbfb]) htb
    · intro s t1 hw ht1
      match s with
      | [] =>
        rw [VT.part_nil] at ht1
        cases ht1
        exact ⟨b', rfl, by rw [List.append_nil]; exact hself⟩
      | [k] =>
        obtain ⟨c, s', g1, _, g2, g3⟩ := hE2 k (by rw [ht1]; simp)
        rw [g1] at ht1
        cases ht1
        refine ⟨c, g2, ?_⟩
        rw [KP_key (by simp), hmap]
        exact putAll_new E (hbase [k] (by simp) hw) g3 hE3
      | k :: k2 :: s => rw [hflat] at ht1; simp at ht1
    · intro s hw hn
      refine hsep s hw ?_ hn
      rintro rfl
      rw [VT.part_nil] at hn
      simp at hn
    · intro s hs
      match s with
      | [] => rw [List.append_nil]; exact hq
      | [k] =>
        obtain ⟨_, _, _, g2, _⟩ := hE2 k hs
        exact g2
      | k :: k2 :: s => exact absurd (hflat k k2 s) hs

/-! ## Arrays of scalars -/

theorem freshElems_det {h : Heap} : ∀ (vs : List Value) {avs avs' : List ArrayValue} {g : List Addr}, allScalar vs → (freshElems vs).Rep h avs g →
    (freshElems vs).Rep h avs' g → avs = avs'
  | [], _, _, _, _, h1, h2 => by rw [h1.1, h2.1]
  | v :: vs, avs, avs', g, hs, h1, h2 => by
    obtain ⟨s, _, e⟩ := Value.fresh_scalar (hs v (by simp))
    obtain ⟨b, a1, f1, f2, rfl, r1, s1, rfl⟩ := h1
    obtain ⟨b', a1', f1', f2', rfl, r1', s1', e'⟩ := h2
    rw [e] at r1 r1'
    rw [r1.2, r1'.2] at e'
    simp at e'
    obtain ⟨rfl, rfl⟩ := e'
    rw [freshElems_det vs (fun v hv => hs v (by simp [hv])) s1 s1']

theorem freshElems_at {h : Heap} : ∀ (vs : List Value) {avs : List ArrayValue} {g : List Addr}, allScalar vs → (freshElems vs).Rep h avs g →
    ∀ i, (∀ av, avs[i]? = some av → ∃ s, (freshElems vs).part i [] = some (.leaf s)) ∧ (avs[i]? = none → (freshElems vs).part i [] = none)
  | [], _, _, _, h1, i => by rw [h1.1]; simp [freshElems, Elems.part]
  | v :: vs, avs, g, hs, h1, i => by
    obtain ⟨s, _, e⟩ := Value.fresh_scalar (hs v (by simp))
    obtain ⟨b, a1, f1, f2, rfl, r1, s1, rfl⟩ := h1
    cases i with
    | zero =>
      refine ⟨fun _ _ => ⟨s, ?_⟩, fun hn => by simp at hn⟩
      rw [freshElems, Elems.part, e, VT.part_nil]
    | succ i =>
      have := freshElems_at vs (fun v hv => hs v (by simp [hv])) s1 i
      rw [freshElems, Elems.part]
      simpa using this

theorem avEntries_iff {key : Str} : ∀ (avs : List ArrayValue) (i : Nat) (e : Str × Addr), e ∈ avEntries key i avs ↔ ∃ (j : Nat) (av : ArrayValue), avs[j]? = some av ∧ e = (key ++ idxStr (i + j), av.val)
  | [], _, e => by simp [avEntries]
  | av :: avs, i, e => by
    rw [avEntries, List.mem_cons, avEntries_iff avs (i + 1) e]
    constructor
    · rintro (rfl | ⟨j, av', h1, h2⟩)
      · exact ⟨0, av, rfl, rfl⟩
      · exact ⟨j + 1, av', by simpa using h1, by rw [h2, show i + 1 + j = i + (j + 1) by omega]⟩
    · rintro ⟨j, av', h1, h2⟩
      cases j with
      | zero => simp at h1; subst h1; exact .inl h2
      | succ j => exact .inr ⟨j, av', by simpa using h1, by rw [h2, show i + 1 + j = i + (j + 1) by omega]⟩

theorem freshElems_kinds : ∀ (vs : List Value), (freshElems vs).kinds.length = vs.length
  | [] => rfl
  | v :: vs => by simp [freshElems, Elems.kinds, freshElems_kinds vs]

theorem freshPairs_names : ∀ (vs : List (Str × Value)), (freshPairs vs).keys = vs.map (·.1)
  | [] => rfl
  | (k, v) :: vs => by simp [freshPairs, Pairs.keys, freshPairs_names vs]

/-- An array of scalars is assigned. -/
theorem Hist.array {ls : List (Str × ET)} {p : Parser} {fp : List Addr} (h : Hist ls p fp) (hP : PInv p) {q : List Key} {t : VT}
    (hv : (Sections.read ls).valueAt q = some t) {vs : List Value} (hd : (Value.arr vs).deepValid = true) (hsc : allScalar vs) (hf : t.fits (.arr vs) = false) :
    ∃ p', p.setValue (keyOf [] q) (.arr vs) = .ok (p', true) ∧ ∃ fp', Hist (putLines {} q (Value.arr vs).fresh ls) p' fp' := by
  have hq := h.vwf q (by rw [hv]; simp)
  have hne := h.ne hv
  obtain ⟨b, F, rfl, hplug, H⟩ := h.focusAt hq hv
  have hb : valOf p.st.map (keyOf [] q) = some b := valOf_some.mpr ⟨_, h.keyed hv H.key⟩
  obtain ⟨subs, hsub, _⟩ := allSubkeys_ok p.st.map (keyOf [] q)
  have hs : sameStructure p.st.heap b (.arr vs) = false := by rw [sameStructure_rep _ F.sub_rep, hf]
  obtain ⟨p', avs, g, e1, e2, _, e4, e5, e6⟩ := setValue_flat hP hb hsc (by simpa [Value.deepValid] using hd) hs hsub
  obtain ⟨avs', g', k1, k2, k3⟩ := e4
  simp at k3
  subst k3
  have hav := freshElems_det vs hsc e5 k2
  subst hav
  have hat := freshElems_at vs hsc e5
  have hchild : (Value.arr vs).fresh.children = .count vs.length := by simp [Value.fresh, VT.children, freshElems_kinds]
  refine ⟨p', e1, h.graft hv H.key hd rfl hf hsub e1 (by rw [hchild]; exact e6) e2 ?_ ?_ (avEntries_nodup _ _)⟩
  · intro e he
    obtain ⟨j, av, h1, rfl⟩ := (avEntries_iff _ _ _).mp he
    refine ⟨.idx j, by rw [keyOf_idx]; simp, hq.pushKey hne (by simp), ?_, ?_⟩
    · rw [reach_arr k1, reachE, h1]; rfl
    · obtain ⟨s, hs⟩ := (hat j).1 av h1
      exact ⟨s, hs⟩
  · intro k hk
    cases k with
    | str k => exact absurd rfl hk
    | idx j =>
      have hk : (freshElems vs).part j [] ≠ none := hk
      cases ha : avs[j]? with
      | none => exact absurd ((hat j).2 ha) hk
      | some av =>
        obtain ⟨s, hs⟩ := (hat j).1 av ha
        refine ⟨av.val, s, hs, hq.pushKey hne (by simp), ?_, ?_⟩
        · rw [reach_arr k1, reachE, ha]; rfl
        · exact (avEntries_iff _ _ _).mpr ⟨j, av, ha, by rw [keyOf_idx]; simp⟩

/-! ## Inline tables of scalars -/

theorem freshPairs_det {h : Heap} : ∀ (vs : List (Str × Value)) {avs avs' : List TableKeyVal} {g : List Addr}, allScalar (vs.map (·.2)) → (freshPairs vs).Rep h avs g →
    (freshPairs vs).Rep h avs' g → avs = avs'
  | [], _, _, _, _, h1, h2 => by rw [h1.1, h2.1]
  | (k, v) :: vs, avs, avs', g, hs, h1, h2 => by
    obtain ⟨s, _, e⟩ := Value.fresh_scalar (hs v (by simp))
    obtain ⟨b, a1, f1, f2, rfl, r1, s1, rfl⟩ := h1
    obtain ⟨b', a1', f1', f2', rfl, r1', s1', e'⟩ := h2
    rw [e] at r1 r1'
    rw [r1.2, r1'.2] at e'
    simp at e'
    obtain ⟨rfl, rfl⟩ := e'
    rw [freshPairs_det vs (fun v hv => hs v (by simp at hv ⊢; exact .inr hv)) s1 s1']

theorem freshPairs_at {h : Heap} : ∀ (vs : List (Str × Value)) {avs : List TableKeyVal} {g : List Addr}, allScalar (vs.map (·.2)) → (freshPairs vs).Rep h avs g →
    ∀ k, (∀ av, avs.find? (·.keyval.key = k) = some av → ∃ s, (freshPairs vs).part k [] = some (.leaf s)) ∧
      (avs.find? (·.keyval.key = k) = none → (freshPairs vs).part k [] = none)
  | [], _, _, _, h1, i => by rw [h1.1]; simp [freshPairs, Pairs.part]
  | (k', v) :: vs, avs, g, hs, h1, k => by
    obtain ⟨s, _, e⟩ := Value.fresh_scalar (hs v (by simp))
    obtain ⟨b, a1, f1, f2, rfl, r1, s1, rfl⟩ := h1
    have := freshPairs_at vs (fun v hv => hs v (by simp at hv ⊢; exact .inr hv)) s1 k
    rw [freshPairs, Pairs.part]
    by_cases hk : k' = k
    · rw [if_pos hk, e, VT.part_nil, List.find?_cons_of_pos (by simpa using hk)]
      exact ⟨fun _ _ => ⟨s, rfl⟩, fun hn => by simp at hn⟩
    · rw [if_neg hk, List.find?_cons_of_neg (by simpa using hk)]
      exact this

theorem find_nodup : ∀ {avs : List TableKeyVal}, (avs.map (·.keyval.key)).Nodup → ∀ kv ∈ avs, avs.find? (·.keyval.key = kv.keyval.key) = some kv
  | [], _, kv, h => by simp at h
  | a :: avs, hn, kv, h => by
    rw [List.map_cons, List.nodup_cons] at hn
    rw [List.mem_cons] at h
    by_cases he : a.keyval.key = kv.keyval.key
    · rw [List.find?_cons_of_pos (by simpa using he)]
      rcases h with rfl | h
      · rfl
      · exact absurd (by rw [he]; exact List.mem_map_of_mem h) hn.1
    · rw [List.find?_cons_of_neg (by simpa using he)]
      rcases h with rfl | h
      · exact absurd rfl he
      · exact find_nodup hn.2 kv h

theorem foldl_uniq_old : ∀ (l : List TableKeyVal) (ks : List Str), (∀ kv ∈ l, kv.keyval.key ∈ ks) → l.foldl (fun ks kv => (insertUniq ks kv.keyval.key).1) ks = ks
  | [], _, _ => rfl
  | x :: l, ks, h => by
    rw [List.foldl_cons, insertUniq, if_pos (h x (by simp))]
    exact foldl_uniq_old l ks (fun kv hk => h kv (by simp [hk]))

theorem foldl_uniq_new : ∀ (l : List TableKeyVal) (ks : List Str), (ks ++ l.map (·.keyval.key)).Nodup → l.foldl (fun ks kv => (insertUniq ks kv.keyval.key).1) ks = ks ++ l.map (·.keyval.key)
  | [], ks, _ => by simp
  | x :: l, ks, h => by
    have hx : x.keyval.key ∉ ks := by
      rw [List.nodup_append] at h
      intro hm
      exact h.2.2 _ hm _ (by simp) rfl
    rw [List.foldl_cons, insertUniq, if_neg hx]
    rw [foldl_uniq_new l _ (by simpa using h)]
    simp

/-- The children of an inline table whose old keys come first. -/
theorem foldl_uniq {l : List TableKeyVal} {ks : List Str} (hp : ks <+: l.map (·.keyval.key)) (hn : (l.map (·.keyval.key)).Nodup) :
    l.foldl (fun ks kv => (insertUniq ks kv.keyval.key).1) ks = l.map (·.keyval.key) := by
  obtain ⟨r, hr⟩ := hp
  obtain ⟨l1, l2, rfl, h1, h2⟩ := List.map_eq_append_iff.mp hr.symm
  rw [List.foldl_append, foldl_uniq_old l1 ks (fun kv hk => by rw [← h1]; exact List.mem_map_of_mem hk), foldl_uniq_new l2 ks, List.map_append, h1]
  rw [List.map_append, h1] at hn
  exact hn

/-- An inline table of scalars is assigned, in place of another one whose keys come first. -/
theorem Hist.table {ls : List (Str × ET)} {p : Parser} {fp : List Addr} (h : Hist ls p fp) (hP : PInv p) {q : List Key} {kvs : Pairs} {ws : WSSep}
    (hv : (Sections.read ls).valueAt q = some (.itab kvs ws)) {vs : List (Str × Value)} (hd : (Value.itab vs).deepValid = true) (hsc : allScalar (vs.map (·.2)))
    (hf : (VT.itab kvs ws).fits (.itab vs) = false) (hpre : kvs.keys <+: vs.map (·.1)) (hn : (vs.map (·.1)).Nodup) (hkw : ∀ w ∈ vs, KeyWf w.1) :
    ∃ p', p.setValue (keyOf [] q) (.itab vs) = .ok (p', true) ∧ ∃ fp', Hist (putLines {} q (Value.itab vs).fresh ls) p' fp' := by
  have hq := h.vwf q (by rw [hv]; simp)
  have hne := h.ne hv
  obtain ⟨b, F, hF, hplug, H⟩ := h.focusAt hq hv
  have hg := h.keyed hv H.key
  obtain ⟨subs, hsub, _⟩ := allSubkeys_ok p.st.map (keyOf [] q)
  have hs : sameStructure p.st.heap b (.itab vs) = false := by rw [sameStructure_rep _ F.sub_rep, hF, hf]
  obtain ⟨p', avs, g, c, e1, e2, _, e4, e5, e6, _, e7⟩ := setValue_flatTab hP hg hsc (by simpa [Value.deepValid] using hd) hs hsub
  obtain ⟨avs', g', k1, k2, k3⟩ := e4
  simp at k3
  subst k3
  have hav := freshPairs_det vs hsc e5 k2
  subst hav
  have hat := freshPairs_at vs hsc e5
  have hkeys := freshPairs_keys vs e5
  have hnd : (avs.map (·.keyval.key)).Nodup := by rw [hkeys]; exact hn
  have hc := e7 kvs.keys rfl
  rw [foldl_uniq (by rw [hkeys]; exact hpre) hnd, hkeys] at hc
  have hchild : (Value.itab vs).fresh.children = .keys (vs.map (·.1)) := by simp [Value.fresh, VT.children, freshPairs_names]
  have hstr : ∀ k : Str, keyOf [] (q ++ [.str k]) = keyOf [] q ++ lit% "." ++ k := by
    intro k
    rw [keyOf_append, keyOf_rest _ (keyOf_ne_nil hq hne)]
    simp [restStr]
  have hwf : ∀ kv ∈ avs, PathWf (q ++ [.str kv.keyval.key]) := by
    intro kv hkv
    refine hq.push ?_
    have : kv.keyval.key ∈ vs.map (·.1) := by rw [← hkeys]; exact List.mem_map_of_mem hkv
    obtain ⟨w, hw, e⟩ := List.mem_map.mp this
    rw [← e]
    exact hkw w hw
  refine ⟨p', e1, h.graft hv H.key hd rfl hf hsub e1 (by rw [hchild, ← hc]; exact e6) e2 ?_ ?_ ?_⟩
  · intro e he
    obtain ⟨kv, hkv, rfl⟩ := List.mem_map.mp he
    have hfd := find_nodup hnd kv hkv
    refine ⟨.str kv.keyval.key, (hstr _).symm, hwf kv hkv, ?_, ?_⟩
    · rw [reach_itab k1, reachK, hfd]; rfl
    · obtain ⟨s, hs⟩ := (hat kv.keyval.key).1 kv hfd
      exact ⟨s, hs⟩
  · intro k hk
    cases k with
    | idx k => exact absurd rfl hk
    | str k =>
      have hk : (freshPairs vs).part k [] ≠ none := hk
      cases ha : avs.find? (·.keyval.key = k) with
      | none => exact absurd ((hat k).2 ha) hk
      | some kv =>
        obtain ⟨s, hs⟩ := (hat k).1 kv ha
        have hkv := List.mem_of_find?_eq_some ha
        have hke : kv.keyval.key = k := by simpa using List.find?_some ha
        have hw := hwf kv hkv
        rw [hke] at hw
        refine ⟨kv.keyval.val, s, hs, hw, ?_, ?_⟩
        · rw [reach_itab k1, reachK, ha]; rfl
        · rw [hstr, kvEntries, List.mem_map]
          exact ⟨kv, hkv, by rw [hke]⟩
  · rw [kvEntries_keys, hkeys]
    exact List.pairwise_map.mpr (hn.imp fun hxy e => hxy (by simpa using e))

end Tomllib
