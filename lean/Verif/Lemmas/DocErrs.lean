import Verif.Lemmas.Errs
/-!
# Reading the lines of a document without arrays of tables: entries and errors
-/

namespace Tomllib

theorem adj_spec : ∀ (ks : List ArrayType) (p : ArrayType), (∀ k ∈ ks, k ≠ .none) → p ≠ .none → (adj p ks = true ↔ ∃ k ∈ ks, k ≠ p)
  | [], p, _, _ => by simp [adj]
  | k :: ks, p, h, hp => by
    rw [adj, Bool.or_eq_true, adj_spec ks k (fun x hx => h x (by simp [hx])) (h k (by simp))]
    by_cases e : p = k
    · subst e; simp
    · simp [e, hp]
      exact .inl fun e' => e e'.symm

theorem VT.kind_ne (t : VT) : t.kind ≠ .none := by
  cases t with
  | leaf s => cases s <;> simp [VT.kind]
  | _ => simp [VT.kind]

theorem Elems.kinds_ne : ∀ (t : Elems), ∀ k ∈ t.kinds, k ≠ .none
  | .nil, k, h => by simp [Elems.kinds] at h
  | .cons v _ _ r, k, h => by
    simp [Elems.kinds] at h
    rcases h with rfl | h
    · exact v.kind_ne
    · exact r.kinds_ne k h

theorem adj_none (t : Elems) : adj .none t.kinds = (t.kinds.any fun k => t.kinds.any fun k' => k ≠ k') := by
  cases t with
  | nil => rfl
  | cons v a b r =>
    rw [Bool.eq_iff_iff]
    rw [Elems.kinds, adj, Bool.or_eq_true, adj_spec _ _ r.kinds_ne v.kind_ne]
    simp
    constructor
    · rintro ⟨k, hk, h⟩
      exact .inl ⟨k, hk, fun e => h e.symm⟩
    · rintro (⟨k, hk, h⟩ | ⟨k, hk, h | ⟨k', hk', h⟩⟩)
      · exact ⟨k, hk, fun e => h e.symm⟩
      · exact ⟨k, hk, h⟩
      · by_cases e : k = v.kind
        · exact ⟨k', hk', fun e' => h (e.trans e'.symm)⟩
        · exact ⟨k, hk, e⟩

theorem VT.isMixed_leaf (s : Scalar) : isMixed (.val (.leaf s)) = false := rfl

mutual
theorem VT.mem_mixedKeys : ∀ (t : VT) (K x : Str), x ∈ t.mixedKeys K ↔ ∃ e ∈ t.allEntries K, e.1 = x ∧ isMixed (.val e.2) = true
  | .leaf s, K, x => by simp [VT.mixedKeys, VT.allEntries, VT.entries, isMixed]
  | .arr es _ _, K, x => by
    rw [VT.mixedKeys, List.mem_append, Elems.mem_mixedKeys es, VT.allEntries, VT.entries]
    simp only [List.mem_append, List.mem_singleton, or_and_right, exists_or]
    apply or_congr Iff.rfl
    simp only [exists_eq_left, isMixed, adj_none]
    cases es.kinds.any fun k => es.kinds.any fun k' => decide (k ≠ k') <;> simp [eq_comm]
  | .itab kvs _, K, x => by
    rw [VT.mixedKeys, Pairs.mem_mixedKeys kvs, VT.allEntries, VT.entries]
    simp [isMixed]
theorem Elems.mem_mixedKeys : ∀ (t : Elems) (K : Str) (i : Nat) (x : Str),
    x ∈ t.mixedKeys K i ↔ ∃ e ∈ t.entries K i, e.1 = x ∧ isMixed (.val e.2) = true
  | .nil, K, i, x => by simp [Elems.mixedKeys, Elems.entries]
  | .cons v _ _ r, K, i, x => by
    rw [Elems.mixedKeys, List.mem_append, VT.mem_mixedKeys v, Elems.mem_mixedKeys r, VT.allEntries, Elems.entries]
    simp only [List.mem_append, List.mem_cons, List.not_mem_nil, or_false, or_and_right, exists_or, or_assoc]
theorem Pairs.mem_mixedKeys : ∀ (t : Pairs) (K x : Str), x ∈ t.mixedKeys K ↔ ∃ e ∈ t.entries K, e.1 = x ∧ isMixed (.val e.2) = true
  | .nil, K, x => by simp [Pairs.mixedKeys, Pairs.entries]
  | .cons k _ v _ _ r, K, x => by
    rw [Pairs.mixedKeys, List.mem_append, VT.mem_mixedKeys v, Pairs.mem_mixedKeys r, VT.allEntries, Pairs.entries]
    simp only [List.mem_append, List.mem_cons, List.not_mem_nil, or_false, or_and_right, exists_or, or_assoc]
end

/-- The errors added while entries are read. -/
def DocIss (errs errs' : List ParseError) (seen : List Str) (F : List (Str × Entry)) : Prop :=
  ∃ l, errs' = errs ++ l ∧ l.filterMap ParseError.dup? = repeats seen F ∧ l.filterMap ParseError.date? = F.filterMap badDate ∧
    (∀ k ∈ l.filterMap ParseError.mixed?, ∃ e, (k, e) ∈ F ∧ isMixed e = true) ∧ (∀ e ∈ l, e.table? = none) ∧
    (∀ e ∈ F, isMixed e.2 = true → errs' ≠ [])

theorem DocIss.refl (errs : List ParseError) (seen : List Str) : DocIss errs errs seen [] :=
  ⟨[], by simp, by simp [repeats], by simp, by simp, by simp, by simp⟩

theorem DocIss.trans {a b c : List ParseError} {seen : List Str} {F G : List (Str × Entry)} (h : DocIss a b seen F)
    (h' : DocIss b c (seen ++ F.map (·.1)) G) : DocIss a c seen (F ++ G) := by
  obtain ⟨l, h1, h2, h3, h4, h5, h6⟩ := h
  obtain ⟨l', g1, g2, g3, g4, g5, g6⟩ := h'
  refine ⟨l ++ l', by rw [g1, h1, List.append_assoc], ?_, ?_, ?_, ?_, ?_⟩
  · rw [List.filterMap_append, h2, g2, repeats_append]
  · rw [List.filterMap_append, h3, g3, List.filterMap_append]
  · intro k hk
    rw [List.filterMap_append, List.mem_append] at hk
    rcases hk with hk | hk
    · obtain ⟨e, e1, e2⟩ := h4 k hk
      exact ⟨e, by simp [e1], e2⟩
    · obtain ⟨e, e1, e2⟩ := g4 k hk
      exact ⟨e, by simp [e1], e2⟩
  · intro e he
    rw [List.mem_append] at he
    exact he.elim (h5 e) (g5 e)
  · intro e he hm
    rw [List.mem_append] at he
    rcases he with he | he
    · have := h6 e he hm
      rw [g1]; simp [this]
    · exact g6 e he hm

theorem DocInv.seen {T : List Str} {E : AEnts} {st : PState} (h : DocInv T E st) : Seen st.map (E.erase.map (·.1)) := by
  intro x
  rw [h.vals x]
  simp only [ne_eq, Option.map_eq_none_iff, lookup_none, AEnts.erase]
  simp

theorem kvEnts_erase (T : List Str) (n : Nat) (k : Str) (v : VT) : (kvEnts T n k v).erase = valEnts (v.allEntries (nkey (T ++ [k]))) := by
  have := v.aents_entries (nkey (T ++ [k])) n
  rw [kvEnts, AEnts.erase, valEnts, VT.allEntries, ← this]
  simp

/-- A line `k = v`: no panic, the entries, the errors. -/
theorem DocInv.kvLine {T : List Str} {E : AEnts} {st : PState} (h : DocInv T E st) {w1 k : Str} {s : WSSep} {v : VT} {w2 : Str} {c : Option Str}
    (hw : KeyWf k) (hv : v.wf) : ∃ st', ET.eff (.kv w1 k s v w2 c) st = .ok st' ∧ DocInv T (E ++ kvEnts T st.heap.length k v) st' ∧
      DocIss st.errors st'.errors (E.erase.map (·.1)) (valEnts (v.allEntries (nkey (T ++ [k])))) := by
  have hcp : Ctx T (st.pushK k) := h.ctx.congr rfl rfl rfl rfl
  have hpk : (st.pushK k).keychain = names [k] := by simp [PState.pushK, h.kc, names]
  have hpw : PathWf (st.pushK k).keychain := by
    rw [hpk]; exact ⟨hw, by simp⟩
  have hne : (st.pushK k).keychain ≠ [] := by rw [hpk]; simp [names]
  obtain ⟨st1, h1⟩ := v.eff_total hcp (h.inv.pushK k) hpw hne hv
  have all1 := v.eff_all (h.inv.pushK k)
  rw [h1] at all1
  have f1 := VT.eff_frame h1
  have hc1 := hcp.frame f1
  obtain ⟨st', h2⟩ := keyvalAct_total k hc1 all1.1 all1.2 (by rw [f1.keychain]; exact hpw) (by rw [f1.keychain]; exact hne)
  have he : ET.eff (.kv w1 k s v w2 c) st = .ok st' := by
    rw [ET.eff, h1, Out.bind, h2]
  refine ⟨st', he, h.kv hw hv he, ?_⟩
  obtain ⟨i1, _⟩ := v.eff_issues hcp (h.inv.pushK k) hpw hne hv h.seen h1
  obtain ⟨a1, _⟩ := v.eff_val hcp hpw hne hv h1
  obtain ⟨r1, _⟩ := VT.eff_read (h.inv.pushK k) h1
  have hs1 := Seen.of_val (show Seen (st.pushK k).map _ from h.seen) (v.aents_entries _ _) a1
  have i2 := keyvalAct_issues (v := v) hc1 (by rw [f1.keychain]; exact hpw) (by rw [f1.keychain]; exact hne) hs1 r1 h2
  have i3 := i1.trans i2
  rw [f1.keychain, hpk, ← names_append] at i3
  obtain ⟨l, b1, b2, b3, b4, b5, b6⟩ := i3
  refine ⟨l, b1, b2, by simpa using b3, ?_, b5, ?_⟩
  · intro x hx
    have := b4 x hx
    rw [List.append_nil, VT.mem_mixedKeys] at this
    obtain ⟨e, e1, rfl, e3⟩ := this
    exact ⟨.val e.2, by simp only [valEnts, List.mem_map]; exact ⟨e, e1, rfl⟩, e3⟩
  · intro e he hm
    apply b6
    simp only [valEnts, List.mem_map] at he
    obtain ⟨y, y1, rfl⟩ := he
    have : y.1 ∈ v.mixedKeys (keyOf [] (names (T ++ [k]))) := (v.mem_mixedKeys _ _).mpr ⟨y, y1, rfl, hm⟩
    intro e
    rw [List.append_nil] at e
    rw [e] at this
    simp at this

theorem nkey_push (T : List Str) (k : Str) : nkey (T ++ [k]) = dotted (nkey T) k := by
  rw [nkey, nkey, names_append, keyOf_append]; rfl

/-- A document whose headers are in order. -/
theorem DocInv.linesOk : ∀ (ls : List (Str × ET)) {T : List Str} {E : AEnts} {st : PState}, DocInv T E st → (∀ l ∈ ls, l.2.wf) → hasArrayTable ls = false →
    HeadersOk (nkey T) E.erase ls → ∃ st' ns T' F, linesEff ls st = .ok (st', ns) ∧ DocInv T' (E ++ F) st' ∧ F.erase = docEntries (nkey T) ls ∧
      DocIss st.errors st'.errors (E.erase.map (·.1)) (docEntries (nkey T) ls)
  | [], T, E, st, h, _, _, _ => ⟨st, [], T, [], rfl, by simpa using h, rfl, .refl _ _⟩
  | (nl, e) :: ls, T, E, st, h, hw, hn, hh => by
    have hl := h.linesN (nlCount nl)
    have hn' : hasArrayTable ls = false := by
      simp [hasArrayTable] at hn ⊢; exact hn.2
    have hw' : ∀ l ∈ ls, l.2.wf := fun l hl => hw l (by simp [hl])
    have he := hw (nl, e) (by simp)
    have key : ∀ {T1 : List Str} {E1 : AEnts} {st1 : PState}, e.eff (st.lines (nlCount nl)) = .ok st1 → DocInv T1 (E ++ E1) st1 →
        HeadersOk (nkey T1) (E.erase ++ E1.erase) ls → docEntries (nkey T) ((nl, e) :: ls) = E1.erase ++ docEntries (nkey T1) ls →
        DocIss st.errors st1.errors (E.erase.map (·.1)) E1.erase → ∃ st' ns T' F, linesEff ((nl, e) :: ls) st = .ok (st', ns) ∧ DocInv T' (E ++ F) st' ∧
        F.erase = docEntries (nkey T) ((nl, e) :: ls) ∧ DocIss st.errors st'.errors (E.erase.map (·.1)) (docEntries (nkey T) ((nl, e) :: ls)) := by
      intro T1 E1 st1 g1 g2 g3 g4 g5
      obtain ⟨st', ns, T', F, r1, r2, r3, r4⟩ := DocInv.linesOk ls g2 hw' hn' (by rw [AEnts.erase_append]; exact g3)
      refine ⟨st', _, T', E1 ++ F, by rw [linesEff, g1, Out.bind, r1, Out.bind], by rw [← List.append_assoc]; exact r2, ?_, ?_⟩
      · rw [AEnts.erase_append, r3, g4]
      · rw [g4]
        exact g5.trans (by simpa [AEnts.erase_append] using r4)
    cases e with
    | blank w => exact key (E1 := []) rfl (by simpa using hl) (by simpa [AEnts.erase, HeadersOk] using hh) (by simp [docEntries, AEnts.erase]) (.refl _ _)
    | comment w c => exact key (E1 := []) rfl (by simpa using hl) (by simpa [AEnts.erase, HeadersOk] using hh) (by simp [docEntries, AEnts.erase]) (.refl _ _)
    | kv w1 k s v w2 c =>
      obtain ⟨st1, g1, g2, g3⟩ := hl.kvLine (w1 := w1) (s := s) (w2 := w2) (c := c) he.2.1 he.2.2.2.1
      refine key g1 g2 ?_ ?_ (by rw [kvEnts_erase]; exact g3)
      · rw [kvEnts_erase, nkey_push]; exact hh
      · rw [kvEnts_erase, nkey_push]; rfl
    | table w1 t w2 c =>
      cases t with
      | arr t => simp [hasArrayTable] at hn
      | std t =>
        obtain ⟨h1, h2⟩ := hh
        obtain ⟨st1, g1, g2, g3, g4⟩ := (hl.header he.2.1).1 h1
        have hk : t.key = nkey t.names := t.key_eq
        refine key g1 g2 ?_ ?_ ?_
        · rw [← hk]; exact h2
        · rw [← hk]; rfl
        · rw [g4]
          exact ⟨[], by simp [PState.lines], by simp [AEnts.erase, repeats], by simp [AEnts.erase, badDate], by simp, by simp, by simp [AEnts.erase, isMixed]⟩

/-! ## A bad header is never forgotten -/

/-- A bad table header has been recorded. -/
def HasBad (st : PState) : Prop := ∃ e ∈ st.errors, e.table? ≠ none

theorem HasBad.append {st st' : PState} {l : List ParseError} (h : HasBad st) (e : st'.errors = st.errors ++ l) : HasBad st' := by
  obtain ⟨x, h1, h2⟩ := h
  exact ⟨x, by rw [e]; simp [h1], h2⟩

theorem HasBad.of_eq {st st' : PState} (h : HasBad st) (e : st'.errors = st.errors) : HasBad st' := h.append (l := []) (by simp [e])

theorem insertKeyval_bad {st st' : PState} {a : Addr} (hs : insertKeyval st a = .ok st') (h : HasBad st) : HasBad st' := by
  simp only [insertKeyval, Out.bind_eq, Out.bind_ok] at hs
  obtain ⟨⟨x, y⟩, _, hs⟩ := hs
  dsimp only at hs
  split at hs
  · rw [Out.bind_ok] at hs
    obtain ⟨v, _, hs⟩ := hs
    simp at hs; subst hs; exact h.append rfl
  · split at hs
    · simp at hs
    · simp at hs; subst hs; exact h.of_eq rfl

theorem keyvalAct_bad {k : Str} {st st' : PState} {a : Addr} (hs : keyvalAct k a st = .ok st') (h : HasBad st) : HasBad st' := by
  simp only [keyvalAct, Out.bind_eq, Out.bind_ok] at hs
  obtain ⟨st1, h1, hs⟩ := hs
  simp at hs; subst hs
  refine HasBad.of_eq (st := st1) ?_ rfl
  split at h1
  · split at h1
    · simp at h1
    · rw [Out.bind_ok] at h1
      obtain ⟨v, _, h1⟩ := h1
      simp at h1; subst h1
      exact ⟨_, List.mem_append_right _ (by simp; rfl), by simp [ParseError.table?]⟩
    · simp at h1; subst h1; exact h
  · exact insertKeyval_bad h1 h

theorem checkMixed_bad {t : ArrayType} {st st' : PState} (hs : checkMixed t st = .ok st') (h : HasBad st) : HasBad st' := by
  unfold checkMixed at hs
  split at hs
  · simp at hs; subst hs; exact h
  · split at hs
    · simp at hs; subst hs; exact h
    · split at hs
      · simp at hs
      · simp at hs
      · dsimp only at hs
        have key : ∀ (b : Bool) (e : ParseError), (if b = true then Out.ok { st with errors := st.errors ++ [e] } else Out.ok st) = .ok st' → HasBad st' := by
          intro b e hs
          cases b <;> simp at hs <;> subst hs
          · exact h
          · exact h.append rfl
        exact key _ _ hs

theorem arrayValueAct_bad {st st' : PState} {a : Addr} (hs : arrayValueAct a st = .ok st') (h : HasBad st) : HasBad st' := by
  simp only [arrayValueAct, Out.bind_eq, Out.bind_ok] at hs
  obtain ⟨v, _, t, _, st1, h1, st2, h2, hs⟩ := hs
  have b1 := checkMixed_bad h1 h
  have b2 := insertKeyval_bad h2 (b1.of_eq rfl)
  split at hs
  · simp at hs
  · simp at hs; subst hs; exact b2.of_eq rfl

theorem Scalar.eff_bad {s : Scalar} {st st' : PState} (hs : s.eff st = .ok st') (h : HasBad st) : HasBad st' := by
  cases s with
  | dt d =>
    rw [Scalar.eff] at hs
    split at hs
    · simp at hs; subst hs; exact h
    · rw [Out.bind_ok] at hs
      obtain ⟨x, _, hs⟩ := hs
      simp at hs; subst hs; exact h.append rfl
  | str x ty => cases ty <;> simp [Scalar.eff] at hs <;> subst hs <;> exact h.of_eq rfl
  | _ => simp [Scalar.eff] at hs; subst hs; exact h

mutual
theorem VT.eff_bad : ∀ {t : VT} {st st' : PState}, t.eff st = .ok st' → HasBad st → HasBad st'
  | .leaf s, st, st', hs, h => by
    rw [VT.eff, Out.bind_ok] at hs
    obtain ⟨st1, h1, hs⟩ := hs
    simp at hs; subst hs
    exact (Scalar.eff_bad h1 h).of_eq rfl
  | .arr es c1 c2, st, st', hs, h => by
    rw [VT.eff, Out.bind_ok] at hs
    obtain ⟨st1, h1, hs⟩ := hs
    simp at hs; subst hs
    exact (Elems.eff_bad h1 (h.of_eq rfl)).of_eq rfl
  | .itab kvs ws, st, st', hs, h => by
    rw [VT.eff, Out.bind_ok] at hs
    obtain ⟨st1, h1, hs⟩ := hs
    simp at hs; subst hs
    exact (Pairs.eff_bad h1 h).of_eq rfl
theorem Elems.eff_bad : ∀ {t : Elems} {st st' : PState}, t.eff st = .ok st' → HasBad st → HasBad st'
  | .nil, st, st', hs, h => by simp [Elems.eff] at hs; subst hs; exact h
  | .cons v sep cn r, st, st', hs, h => by
    rw [Elems.eff, Out.bind_ok] at hs
    obtain ⟨st1, h1, hs⟩ := hs
    rw [Out.bind_ok] at hs
    obtain ⟨st2, h2, hs⟩ := hs
    exact Elems.eff_bad hs (arrayValueAct_bad h2 (VT.eff_bad h1 h))
theorem Pairs.eff_bad : ∀ {t : Pairs} {st st' : PState}, t.eff st = .ok st' → HasBad st → HasBad st'
  | .nil, st, st', hs, h => by simp [Pairs.eff] at hs; subst hs; exact h
  | .cons k ws v sep cn r, st, st', hs, h => by
    rw [Pairs.eff, Out.bind_ok] at hs
    obtain ⟨st1, h1, hs⟩ := hs
    rw [Out.bind_ok] at hs
    obtain ⟨st2, h2, hs⟩ := hs
    exact Pairs.eff_bad hs (keyvalAct_bad h2 (VT.eff_bad h1 (h.of_eq rfl)))
end

theorem PV.eff_bad : ∀ {t : PV} {st st' : PState}, t.eff st = .ok st' → HasBad st → HasBad st'
  | .nothing, st, st', hs, h => by simp [PV.eff] at hs; subst hs; exact h
  | .val t, st, st', hs, h => VT.eff_bad (t := t) hs h
  | .arr c1 es last, st, st', hs, h => by
    rw [PV.eff, Out.bind_ok] at hs
    obtain ⟨st1, h1, hs⟩ := hs
    rw [Out.bind_ok] at hs
    obtain ⟨st2, h2, hs⟩ := hs
    simp at hs; subst hs
    exact (PV.eff_bad h2 (Elems.eff_bad h1 (h.of_eq rfl))).of_eq rfl
  | .itab w kvs, st, st', hs, h => Pairs.eff_bad (t := kvs) hs h
  | .itabK w kvs k, st, st', hs, h => by
    rw [PV.eff, Out.bind_ok] at hs
    obtain ⟨st1, h1, hs⟩ := hs
    simp at hs; subst hs
    exact (Pairs.eff_bad h1 h).of_eq rfl
  | .itabKV w kvs k ws last, st, st', hs, h => by
    rw [PV.eff, Out.bind_ok] at hs
    obtain ⟨st1, h1, hs⟩ := hs
    exact PV.eff_bad hs ((Pairs.eff_bad h1 h).of_eq rfl)

theorem TableType.eff_bad {t : TableType} {st st' : PState} (hs : t.eff st = .ok st') (h : HasBad st) : HasBad st' := by
  cases t with
  | std t =>
    rw [TableType.eff, Out.bind_ok] at hs
    obtain ⟨⟨s1, t1⟩, h1, hs⟩ := hs
    simp at hs; subst hs
    simp only [stdTableAct] at h1
    split at h1
    · simp at h1
    · simp only [Out.bind_eq, Out.bind_ok] at h1
      obtain ⟨⟨a, b, c⟩, _, h1⟩ := h1
      dsimp only at h1
      split at h1
      · rw [Out.bind_ok] at h1
        obtain ⟨_, _, h1⟩ := h1
        simp at h1
        obtain ⟨rfl, _⟩ := h1
        exact h.append rfl
      · simp only [Out.bind_ok] at h1
        obtain ⟨_, _, _, _, _, _, h1⟩ := h1
        simp at h1
        obtain ⟨rfl, _⟩ := h1
        exact h.of_eq rfl
  | arr t =>
    rw [TableType.eff, Out.bind_ok] at hs
    obtain ⟨⟨s1, t1⟩, h1, hs⟩ := hs
    simp at hs; subst hs
    simp only [arrayTableAct] at h1
    split at h1
    · simp at h1
    · simp only [Out.bind_eq, Out.bind_ok] at h1
      obtain ⟨⟨a, b, c⟩, _, ⟨a', b', c'⟩, _, h1⟩ := h1
      dsimp only at h1
      split at h1
      · simp at h1
        obtain ⟨rfl, _⟩ := h1
        exact h.append rfl
      · simp at h1
        obtain ⟨rfl, _⟩ := h1
        exact h.of_eq rfl

theorem ET.eff_bad {e : ET} {st st' : PState} (hs : e.eff st = .ok st') (h : HasBad st) : HasBad st' := by
  cases e with
  | blank w => simp [ET.eff] at hs; subst hs; exact h
  | comment w c => simp [ET.eff] at hs; subst hs; exact h
  | kv w1 k s v w2 c =>
    rw [ET.eff, Out.bind_ok] at hs
    obtain ⟨st1, h1, hs⟩ := hs
    exact keyvalAct_bad hs (VT.eff_bad h1 (h.of_eq rfl))
  | table w1 t w2 c => exact TableType.eff_bad (t := t) hs h

theorem linesEff_bad : ∀ {ls : List (Str × ET)} {st st' : PState} {ns : List NLExpression}, linesEff ls st = .ok (st', ns) → HasBad st → HasBad st'
  | [], st, st', ns, hs, h => by simp [linesEff] at hs; rw [← hs.1]; exact h
  | (nl, e) :: ls, st, st', ns, hs, h => by
    rw [linesEff, Out.bind_ok] at hs
    obtain ⟨st1, h1, hs⟩ := hs
    rw [Out.bind_ok] at hs
    obtain ⟨⟨st2, ns2⟩, h2, hs⟩ := hs
    simp at hs
    obtain ⟨rfl, _⟩ := hs
    exact linesEff_bad h2 (ET.eff_bad h1 (h.of_eq rfl))

theorem PX.eff_bad {px : PX} {st st' : PState} (hs : px.eff st = .ok st') (h : HasBad st) : HasBad st' := by
  cases px with
  | nothing => simp [PX.eff] at hs; subst hs; exact h
  | header => simp [PX.eff] at hs; subst hs; exact h.of_eq rfl
  | key => simp [PX.eff] at hs; subst hs; exact h.of_eq rfl
  | kv k s last => exact PV.eff_bad (t := last) hs (h.of_eq rfl)
  | pair k s v =>
    rw [PX.eff, Out.bind_ok] at hs
    obtain ⟨st1, h1, hs⟩ := hs
    exact keyvalAct_bad hs (VT.eff_bad h1 (h.of_eq rfl))
  | table t => exact TableType.eff_bad (t := t) hs h

/-- A document with a header that is not in order. -/
theorem DocInv.linesBad : ∀ (ls : List (Str × ET)) {T : List Str} {E : AEnts} {st st' : PState} {ns : List NLExpression}, DocInv T E st → (∀ l ∈ ls, l.2.wf) →
    hasArrayTable ls = false → ¬ HeadersOk (nkey T) E.erase ls → linesEff ls st = .ok (st', ns) → HasBad st'
  | [], T, E, st, st', ns, h, _, _, hh, _ => absurd trivial hh
  | (nl, e) :: ls, T, E, st, st', ns, h, hw, hn, hh, hs => by
    have hl := h.linesN (nlCount nl)
    have hn' : hasArrayTable ls = false := by
      simp [hasArrayTable] at hn ⊢; exact hn.2
    have hw' : ∀ l ∈ ls, l.2.wf := fun l hl => hw l (by simp [hl])
    have he := hw (nl, e) (by simp)
    rw [linesEff, Out.bind_ok] at hs
    obtain ⟨st1, h1, hs⟩ := hs
    rw [Out.bind_ok] at hs
    obtain ⟨⟨st2, ns2⟩, h2, hs⟩ := hs
    simp at hs
    obtain ⟨rfl, _⟩ := hs
    cases e with
    | blank w =>
      simp [ET.eff] at h1; subst h1
      exact DocInv.linesBad ls hl hw' hn' hh h2
    | comment w c =>
      simp [ET.eff] at h1; subst h1
      exact DocInv.linesBad ls hl hw' hn' hh h2
    | kv w1 k s v w2 c =>
      have := hl.kv he.2.1 he.2.2.2.1 h1
      refine DocInv.linesBad ls this hw' hn' ?_ h2
      rw [AEnts.erase_append, kvEnts_erase, nkey_push]; exact hh
    | table w1 t w2 c =>
      cases t with
      | arr t => simp [hasArrayTable] at hn
      | std t =>
        by_cases hok : HeaderOk E.erase t.names
        · obtain ⟨s1, g1, g2, _⟩ := (hl.header he.2.1).1 hok
          have e1 : s1 = st1 := by
            have := g1.symm.trans h1
            simpa using this
          subst e1
          refine DocInv.linesBad ls g2 hw' hn' (fun hc => hh ⟨hok, ?_⟩) h2
          rw [t.key_eq]
          rw [AEnts.erase_append] at hc
          exact hc
        · obtain ⟨s1, g1, g2⟩ := (hl.header he.2.1).2 hok
          have e1 : s1 = st1 := by
            have := g1.symm.trans h1
            simpa using this
          subst e1
          exact linesEff_bad h2 ⟨_, by rw [g2]; exact List.mem_append_right _ (List.mem_singleton.mpr rfl), by simp [ParseError.table?]⟩

end Tomllib
