import Verif.Lemmas.Fresh
/-!
# Wholes and parts among the entries of a document
-/

namespace Tomllib

/-- The elements of an array. -/
def Elems.vts : Elems → List VT
  | .nil => []
  | .cons v _ _ r => v :: r.vts
/-- The pairs of an inline table. -/
def Pairs.kts : Pairs → List (Str × VT)
  | .nil => []
  | .cons k _ v _ _ r => (k, v) :: r.kts

theorem Elems.values_vts : ∀ (t : Elems), t.values = t.vts.map VT.value
  | .nil => rfl
  | .cons v _ _ r => by rw [Elems.values, Elems.vts, List.map_cons, Elems.values_vts r]
theorem Pairs.values_kts : ∀ (t : Pairs), t.values = t.kts.map fun e => (e.1, e.2.value)
  | .nil => rfl
  | .cons k _ v _ _ r => by rw [Pairs.values, Pairs.kts, List.map_cons, Pairs.values_kts r]

theorem Elems.vts_entries : ∀ (t : Elems) (K : Str) (i n : Nat) {v : VT}, t.vts[n]? = some v → (indexed K (i + n), v) ∈ t.entries K i
  | .nil, K, i, n, v, h => by simp [Elems.vts] at h
  | .cons v0 _ _ r, K, i, 0, v, h => by
    simp [Elems.vts] at h; subst h
    simp [Elems.entries]
  | .cons v0 _ _ r, K, i, n + 1, v, h => by
    have := Elems.vts_entries r K (i + 1) n (by simpa [Elems.vts] using h)
    rw [show i + 1 + n = i + (n + 1) by omega] at this
    simp [Elems.entries, this]

theorem Pairs.kts_entries : ∀ (t : Pairs) (K k : Str) {v : VT}, (k, v) ∈ t.kts → (dotted K k, v) ∈ t.entries K
  | .nil, K, k, v, h => by simp [Pairs.kts] at h
  | .cons k0 _ v0 _ _ r, K, k, v, h => by
    simp [Pairs.kts] at h
    rcases h with ⟨rfl, rfl⟩ | h
    · simp [Pairs.entries]
    · simp [Pairs.entries, Pairs.kts_entries r K k h]

mutual
/-- The parts of a part are parts. -/
theorem VT.entries_closed : ∀ (t : VT) (K : Str) {X : Str} {u : VT}, (X, u) ∈ t.entries K → ∀ e ∈ u.entries X, e ∈ t.entries K
  | .leaf s, K, X, u, h, e, he => by simp [VT.entries] at h
  | .arr es c1 c2, K, X, u, h, e, he => Elems.entries_closed es K 0 h e he
  | .itab kvs ws, K, X, u, h, e, he => Pairs.entries_closed kvs K h e he
theorem Elems.entries_closed : ∀ (t : Elems) (K : Str) (i : Nat) {X : Str} {u : VT}, (X, u) ∈ t.entries K i → ∀ e ∈ u.entries X, e ∈ t.entries K i
  | .nil, K, i, X, u, h, e, he => by simp [Elems.entries] at h
  | .cons v _ _ r, K, i, X, u, h, e, he => by
    simp only [Elems.entries, List.mem_append, List.mem_cons] at h ⊢
    rcases h with h | h | h
    · exact .inl (VT.entries_closed v _ h e he)
    · simp at h
      obtain ⟨rfl, rfl⟩ := h
      exact .inl he
    · exact .inr (.inr (Elems.entries_closed r _ _ h e he))
theorem Pairs.entries_closed : ∀ (t : Pairs) (K : Str) {X : Str} {u : VT}, (X, u) ∈ t.entries K → ∀ e ∈ u.entries X, e ∈ t.entries K
  | .nil, K, X, u, h, e, he => by simp [Pairs.entries] at h
  | .cons k _ v _ _ r, K, X, u, h, e, he => by
    simp only [Pairs.entries, List.mem_append, List.mem_cons] at h ⊢
    rcases h with h | h | h
    · exact .inl (VT.entries_closed v _ h e he)
    · simp at h
      obtain ⟨rfl, rfl⟩ := h
      exact .inl he
    · exact .inr (.inr (Pairs.entries_closed r _ h e he))
end

theorem VT.allEntries_closed {t : VT} {K X : Str} {u : VT} (h : (X, u) ∈ t.allEntries K) : ∀ e ∈ u.entries X, e ∈ t.allEntries K := by
  intro e he
  simp only [VT.allEntries, List.mem_append, List.mem_singleton, Prod.mk.injEq] at h ⊢
  rcases h with h | ⟨rfl, rfl⟩
  · exact .inl (VT.entries_closed t K h e he)
  · exact .inl he

/-- The entry `(X, u)` is an element of an array or a pair of an inline table among `L`. -/
def PartOf (L : List (Str × VT)) (X : Str) (u : VT) : Prop :=
  (∃ X0 es c1 c2 i, X = indexed X0 i ∧ (X0, VT.arr es c1 c2) ∈ L ∧ es.vts[i]? = some u) ∨
  (∃ X0 kvs ws k, X = dotted X0 k ∧ (X0, VT.itab kvs ws) ∈ L ∧ (k, u) ∈ kvs.kts)

theorem PartOf.mono {L L' : List (Str × VT)} {X : Str} {u : VT} (h : PartOf L X u) (hl : ∀ e ∈ L, e ∈ L') : PartOf L' X u := by
  rcases h with ⟨X0, es, c1, c2, i, h1, h2, h3⟩ | ⟨X0, kvs, ws, k, h1, h2, h3⟩
  · exact .inl ⟨X0, es, c1, c2, i, h1, hl _ h2, h3⟩
  · exact .inr ⟨X0, kvs, ws, k, h1, hl _ h2, h3⟩

mutual
/-- Every part is an element or a pair of the value or of another part. -/
theorem VT.entries_part : ∀ (t : VT) (K : Str) {X : Str} {u : VT}, (X, u) ∈ t.entries K → PartOf (t.allEntries K) X u
  | .leaf s, K, X, u, h => by simp [VT.entries] at h
  | .arr es c1 c2, K, X, u, h => by
    rcases Elems.entries_part es K 0 h with ⟨n, h1, h2⟩ | h1
    · exact .inl ⟨K, es, c1, c2, n, by rw [h1, Nat.zero_add], by simp [VT.allEntries], h2⟩
    · exact h1.mono fun e he => by simp [VT.allEntries, VT.entries, he]
  | .itab kvs ws, K, X, u, h => by
    rcases Pairs.entries_part kvs K h with ⟨k, h1, h2⟩ | h1
    · exact .inr ⟨K, kvs, ws, k, h1, by simp [VT.allEntries], h2⟩
    · exact h1.mono fun e he => by simp [VT.allEntries, VT.entries, he]
theorem Elems.entries_part : ∀ (t : Elems) (K : Str) (i : Nat) {X : Str} {u : VT}, (X, u) ∈ t.entries K i →
    (∃ n, X = indexed K (i + n) ∧ t.vts[n]? = some u) ∨ PartOf (t.entries K i) X u
  | .nil, K, i, X, u, h => by simp [Elems.entries] at h
  | .cons v _ _ r, K, i, X, u, h => by
    simp only [Elems.entries, List.mem_append, List.mem_cons] at h
    rcases h with h | h | h
    · right
      refine (VT.entries_part v _ h).mono fun e he => ?_
      simp only [VT.allEntries, List.mem_append, List.mem_singleton] at he
      simp only [Elems.entries, List.mem_append, List.mem_cons]
      rcases he with he | he
      · exact .inl he
      · exact .inr (.inl he)
    · simp at h
      obtain ⟨rfl, rfl⟩ := h
      exact .inl ⟨0, rfl, rfl⟩
    · rcases Elems.entries_part r K (i + 1) h with ⟨n, h1, h2⟩ | h1
      · exact .inl ⟨n + 1, by rw [h1]; congr 1; omega, by simpa [Elems.vts] using h2⟩
      · exact .inr (h1.mono fun e he => by simp [Elems.entries, he])
theorem Pairs.entries_part : ∀ (t : Pairs) (K : Str) {X : Str} {u : VT}, (X, u) ∈ t.entries K →
    (∃ k, X = dotted K k ∧ (k, u) ∈ t.kts) ∨ PartOf (t.entries K) X u
  | .nil, K, X, u, h => by simp [Pairs.entries] at h
  | .cons k _ v _ _ r, K, X, u, h => by
    simp only [Pairs.entries, List.mem_append, List.mem_cons] at h
    rcases h with h | h | h
    · right
      refine (VT.entries_part v _ h).mono fun e he => ?_
      simp only [VT.allEntries, List.mem_append, List.mem_singleton] at he
      simp only [Pairs.entries, List.mem_append, List.mem_cons]
      rcases he with he | he
      · exact .inl he
      · exact .inr (.inl he)
    · simp at h
      obtain ⟨rfl, rfl⟩ := h
      exact .inl ⟨k, rfl, by simp [Pairs.kts]⟩
    · rcases Pairs.entries_part r K h with ⟨n, h1, h2⟩ | h1
      · exact .inl ⟨n, h1, by simp [Pairs.kts, h2]⟩
      · exact .inr (h1.mono fun e he => by simp [Pairs.entries, he])
end

/-- The key of a path. -/
def IsPath (X : Str) : Prop := ∃ P, PathWf P ∧ P ≠ [] ∧ X = keyOf [] P

theorem PathWf.pushKey {P : List Key} (h : PathWf P) (hne : P ≠ []) {k : Key} (hk : ∀ s, k = .str s → KeyWf s) : PathWf (P ++ [k]) := by
  cases P with
  | nil => exact absurd rfl hne
  | cons x P =>
    cases x with
    | idx j => exact h.elim
    | str y =>
      refine ⟨h.1, fun s hs => ?_⟩
      simp at hs
      rcases hs with hs | hs
      · exact h.2 s hs
      · exact hk s hs.symm

theorem IsPath.idx {X : Str} (h : IsPath X) (i : Nat) : IsPath (indexed X i) := by
  obtain ⟨P, h1, h2, rfl⟩ := h
  exact ⟨P ++ [.idx i], h1.pushKey h2 (by simp), by simp, by rw [keyOf_append]; rfl⟩
theorem IsPath.str {X : Str} (h : IsPath X) {k : Str} (hk : KeyWf k) : IsPath (dotted X k) := by
  obtain ⟨P, h1, h2, rfl⟩ := h
  exact ⟨P ++ [.str k], h1.pushKey h2 (by simp [hk]), by simp, by rw [keyOf_append]; rfl⟩

theorem IsPath.idx_inj {X Y : Str} (hX : IsPath X) (hY : IsPath Y) {i j : Nat} (h : indexed X i = indexed Y j) :
    X = Y ∧ i = j := by
  obtain ⟨P, h1, h2, rfl⟩ := hX
  obtain ⟨Q, g1, g2, rfl⟩ := hY
  have := keyOf_inj (h1.pushKey h2 (k := .idx i) (by simp)) (g1.pushKey g2 (k := .idx j) (by simp)) (by rw [keyOf_append, keyOf_append]; exact h)
  have := List.append_inj' this rfl
  exact ⟨by rw [this.1], by simpa using this.2⟩
theorem IsPath.str_inj {X Y : Str} (hX : IsPath X) (hY : IsPath Y) {i j : Str} (hi : KeyWf i) (hj : KeyWf j)
    (h : dotted X i = dotted Y j) : X = Y ∧ i = j := by
  obtain ⟨P, h1, h2, rfl⟩ := hX
  obtain ⟨Q, g1, g2, rfl⟩ := hY
  have := keyOf_inj (h1.pushKey h2 (k := .str i) (by simp [hi])) (g1.pushKey g2 (k := .str j) (by simp [hj])) (by rw [keyOf_append, keyOf_append]; exact h)
  have := List.append_inj' this rfl
  exact ⟨by rw [this.1], by simpa using this.2⟩
theorem IsPath.str_ne_idx {X Y : Str} (hX : IsPath X) (hY : IsPath Y) {k : Str} (hk : KeyWf k) (i : Nat) :
    dotted X k ≠ indexed Y i := by
  intro h
  obtain ⟨P, h1, h2, rfl⟩ := hX
  obtain ⟨Q, g1, g2, rfl⟩ := hY
  have := keyOf_inj (h1.pushKey h2 (k := .str k) (by simp [hk])) (g1.pushKey g2 (k := .idx i) (by simp)) (by rw [keyOf_append, keyOf_append]; exact h)
  simp at this
theorem IsPath.str_ne_one {X : Str} (hX : IsPath X) {k j : Str} (hk : KeyWf k) (hj : KeyWf j) : dotted X k ≠ j := by
  intro h
  obtain ⟨P, h1, h2, rfl⟩ := hX
  have := keyOf_inj (q := [.str j]) (h1.pushKey h2 (k := .str k) (by simp [hk])) ⟨hj, by simp⟩ (by rw [keyOf_append]; exact h)
  have := congrArg List.length this
  simp at this
  exact h2 this
theorem IsPath.idx_ne_one {X : Str} (hX : IsPath X) (i : Nat) {j : Str} (hj : KeyWf j) : indexed X i ≠ j := by
  intro h
  obtain ⟨P, h1, h2, rfl⟩ := hX
  have := keyOf_inj (q := [.str j]) (h1.pushKey h2 (k := .idx i) (by simp)) ⟨hj, by simp⟩ (by rw [keyOf_append]; exact h)
  have := congrArg List.length this
  simp at this
  exact h2 this

mutual
theorem VT.entries_path : ∀ (t : VT) {K : Str}, t.wf → IsPath K → ∀ e ∈ t.entries K, IsPath e.1 ∧ e.2.wf
  | .leaf s, K, hw, hp, e, he => by simp [VT.entries] at he
  | .arr es c1 c2, K, hw, hp, e, he => Elems.entries_path es 0 hw.2.1 hp e he
  | .itab kvs ws, K, hw, hp, e, he => Pairs.entries_path kvs hw.2 hp e he
theorem Elems.entries_path : ∀ (t : Elems) {K : Str} (i : Nat), t.wf → IsPath K → ∀ e ∈ t.entries K i, IsPath e.1 ∧ e.2.wf
  | .nil, K, i, hw, hp, e, he => by simp [Elems.entries] at he
  | .cons v _ _ r, K, i, hw, hp, e, he => by
    simp only [Elems.entries, List.mem_append, List.mem_cons] at he
    rcases he with he | he | he
    · exact VT.entries_path v hw.1 (hp.idx i) e he
    · subst he; exact ⟨hp.idx i, hw.1⟩
    · exact Elems.entries_path r _ hw.2.2.2 hp e he
theorem Pairs.entries_path : ∀ (t : Pairs) {K : Str}, t.wf → IsPath K → ∀ e ∈ t.entries K, IsPath e.1 ∧ e.2.wf
  | .nil, K, hw, hp, e, he => by simp [Pairs.entries] at he
  | .cons k _ v _ _ r, K, hw, hp, e, he => by
    simp only [Pairs.entries, List.mem_append, List.mem_cons] at he
    rcases he with he | he | he
    · exact VT.entries_path v hw.2.2.1 (hp.str hw.1) e he
    · subst he; exact ⟨hp.str hw.1, hw.2.2.1⟩
    · exact Pairs.entries_path r hw.2.2.2.2.2 hp e he
end

theorem Pairs.kts_wf : ∀ {t : Pairs}, t.wf → ∀ e ∈ t.kts, KeyWf e.1
  | .nil, h, e, he => by simp [Pairs.kts] at he
  | .cons k _ v _ _ r, h, e, he => by
    simp [Pairs.kts] at he
    rcases he with rfl | he
    · exact h.1
    · exact Pairs.kts_wf h.2.2.2.2.2 e he

/-- With no repeats, every value is the first entry of its key. -/
theorem lookup_unrepeated : ∀ {E : List (Str × Entry)} {seen : List Str}, repeats seen E = [] → ∀ {k : Str} {t : VT}, (k, .val t) ∈ E →
    k ∉ seen ∧ lookup k E = some (.val t)
  | [], seen, h, k, t, hm => by simp at hm
  | (k0, .header) :: E, seen, h, k, t, hm => by
    simp [repeats] at h hm
    have := lookup_unrepeated h hm
    simp at this
    refine ⟨this.1.1, ?_⟩
    rw [lookup, if_neg (fun e => this.1.2 e.symm), this.2]
  | (k0, .val t0) :: E, seen, h, k, t, hm => by
    rw [repeats] at h
    split at h
    · simp at h
    next hn =>
    rw [List.mem_cons] at hm
    rcases hm with hm | hm
    · simp at hm
      obtain ⟨rfl, rfl⟩ := hm
      exact ⟨hn, by simp [lookup]⟩
    · have := lookup_unrepeated h hm
      simp at this
      refine ⟨this.1.1, ?_⟩
      rw [lookup, if_neg (fun e => this.1.2 e.symm), this.2]

/-- Where the values of a document come from: from a line, or they are parts of others. -/
theorem docEntries_origin : ∀ {ls : List (Str × ET)} {T : Str}, (∀ l ∈ ls, l.2.wf) → (T = [] ∨ IsPath T) → ∀ {X : Str} {u : VT}, (X, Entry.val u) ∈ docEntries T ls →
    (IsPath X ∧ u.wf ∧ ∀ e ∈ u.entries X, (e.1, Entry.val e.2) ∈ docEntries T ls) ∧
    ((∃ k, KeyWf k ∧ (X = dotted T k ∨ X = k ∨ ∃ T', IsPath T' ∧ (T', Entry.header) ∈ docEntries T ls ∧ X = dotted T' k)) ∨
     (∃ X0 es c1 c2 i, X = indexed X0 i ∧ (X0, Entry.val (VT.arr es c1 c2)) ∈ docEntries T ls ∧ es.vts[i]? = some u) ∨
     (∃ X0 kvs ws k, X = dotted X0 k ∧ (X0, Entry.val (VT.itab kvs ws)) ∈ docEntries T ls ∧ (k, u) ∈ kvs.kts))
  | [], T, hw, hT, X, u, h => by simp [docEntries] at h
  | (nl, e) :: ls, T, hw, hT, X, u, h => by
    have hw' : ∀ l ∈ ls, l.2.wf := fun l hl => hw l (by simp [hl])
    have hwe : e.wf := hw (nl, e) (by simp)
    cases e with
    | blank w => exact docEntries_origin (ls := ls) hw' hT h
    | comment w c => exact docEntries_origin (ls := ls) hw' hT h
    | kv w1 k s v w2 c =>
      simp only [docEntries] at h ⊢
      rw [List.mem_append] at h
      rcases h with h | h
      · rw [List.mem_map] at h
        obtain ⟨⟨X', u'⟩, h, he⟩ := h
        simp at he
        obtain ⟨rfl, rfl⟩ := he
        have hK : IsPath (dotted T k) := by
          rcases hT with rfl | hT
          · exact ⟨[.str k], ⟨hwe.2.1, by simp⟩, by simp, rfl⟩
          · exact hT.str hwe.2.1
        have hin : ∀ e ∈ v.allEntries (dotted T k), (e.1, Entry.val e.2) ∈
            (v.allEntries (dotted T k)).map (fun e => (e.1, Entry.val e.2)) ++ docEntries T ls := by
          intro e he
          rw [List.mem_append, List.mem_map]
          exact .inl ⟨e, he, rfl⟩
        refine ⟨?_, ?_⟩
        · have hp : IsPath X' ∧ u'.wf := by
            simp only [VT.allEntries, List.mem_append, List.mem_singleton] at h
            rcases h with h | h
            · exact v.entries_path hwe.2.2.2.1 hK _ h
            · simp at h; obtain ⟨rfl, rfl⟩ := h; exact ⟨hK, hwe.2.2.2.1⟩
          exact ⟨hp.1, hp.2, fun e he => hin _ (VT.allEntries_closed h e he)⟩
        · simp only [VT.allEntries, List.mem_append, List.mem_singleton] at h
          rcases h with h | h
          · right
            rcases v.entries_part _ h with ⟨X0, es, c1, c2, i, h1, h2, h3⟩ | ⟨X0, kvs, ws, k, h1, h2, h3⟩
            · exact .inl ⟨X0, es, c1, c2, i, h1, hin _ h2, h3⟩
            · exact .inr ⟨X0, kvs, ws, k, h1, hin _ h2, h3⟩
          · simp at h
            exact .inl ⟨k, hwe.2.1, .inl h.1⟩
      · obtain ⟨⟨g1, g2, g3⟩, g⟩ := docEntries_origin (ls := ls) hw' hT h
        have hin : ∀ e ∈ docEntries T ls, e ∈ (v.allEntries (dotted T k)).map (fun e => (e.1, Entry.val e.2)) ++ docEntries T ls :=
          fun e he => List.mem_append_right _ he
        refine ⟨⟨g1, g2, fun e he => hin _ (g3 e he)⟩, ?_⟩
        rcases g with ⟨k, hk, g | g | ⟨T', g, g', g''⟩⟩ | ⟨X0, es, c1, c2, i, h1, h2, h3⟩ | ⟨X0, kvs, ws, k, h1, h2, h3⟩
        · exact .inl ⟨k, hk, .inl g⟩
        · exact .inl ⟨k, hk, .inr (.inl g)⟩
        · exact .inl ⟨k, hk, .inr (.inr ⟨T', g, hin _ g', g''⟩)⟩
        · exact .inr (.inl ⟨X0, es, c1, c2, i, h1, hin _ h2, h3⟩)
        · exact .inr (.inr ⟨X0, kvs, ws, k, h1, hin _ h2, h3⟩)
    | table w1 t w2 c =>
      cases t with
      | arr t => exact docEntries_origin (ls := ls) hw' hT h
      | std t =>
        simp only [docEntries] at h ⊢
        simp at h
        have hTp : IsPath t.key := by
          refine ⟨t.names.map .str, ?_, ?_, ?_⟩
          · have hkw : ∀ k ∈ t.names, KeyWf k := by
              intro k hk
              simp only [Table.names, List.mem_map] at hk
              obtain ⟨x, hx, rfl⟩ := hk
              exact (hwe.2.1.2 x hx).2
            cases hN : t.names with
            | nil => trivial
            | cons k ks =>
              rw [hN] at hkw
              refine ⟨hkw k (by simp), fun s hs => ?_⟩
              simp at hs
              exact hkw s (by simp [hs])
          · have := hwe.2.1.1
            simpa [Table.names, TableType.table] using this
          · rw [Table.key, keyOf, List.foldl_map]
            rfl
        obtain ⟨⟨g1, g2, g3⟩, g⟩ := docEntries_origin (ls := ls) (T := t.key) hw' (.inr hTp) h
        refine ⟨⟨g1, g2, fun e he => List.mem_cons_of_mem _ (g3 e he)⟩, ?_⟩
        rcases g with ⟨k, hk, g | g | ⟨T', g, g', g''⟩⟩ | ⟨X0, es, c1, c2, i, h1, h2, h3⟩ | ⟨X0, kvs, ws, k, h1, h2, h3⟩
        · exact .inl ⟨k, hk, .inr (.inr ⟨t.key, hTp, by simp, g⟩)⟩
        · exact .inl ⟨k, hk, .inr (.inl g)⟩
        · exact .inl ⟨k, hk, .inr (.inr ⟨T', g, List.mem_cons_of_mem _ g', g''⟩)⟩
        · exact .inr (.inl ⟨X0, es, c1, c2, i, h1, List.mem_cons_of_mem _ h2, h3⟩)
        · exact .inr (.inr ⟨X0, kvs, ws, k, h1, List.mem_cons_of_mem _ h2, h3⟩)

/-- The keys of table headers are keys of lists of names. -/
theorem docEntries_header : ∀ {ls : List (Str × ET)} {T : Str}, (∀ l ∈ ls, l.2.wf) → ∀ {X : Str}, (X, Entry.header) ∈ docEntries T ls →
    ∃ N, NamesWf N ∧ X = nkey N
  | [], T, hw, X, h => by simp [docEntries] at h
  | (nl, e) :: ls, T, hw, X, h => by
    have hw' : ∀ l ∈ ls, l.2.wf := fun l hl => hw l (by simp [hl])
    have hwe : e.wf := hw (nl, e) (by simp)
    cases e with
    | blank w => exact docEntries_header (ls := ls) hw' h
    | comment w c => exact docEntries_header (ls := ls) hw' h
    | kv w1 k s v w2 c =>
      simp only [docEntries, List.mem_append] at h
      rcases h with h | h
      · simp at h
      · exact docEntries_header (ls := ls) hw' h
    | table w1 t w2 c =>
      cases t with
      | arr t => exact docEntries_header (ls := ls) hw' h
      | std t =>
        simp only [docEntries, List.mem_cons] at h
        rcases h with h | h
        · simp at h
          subst h
          refine ⟨t.names, fun k hk => ?_, t.key_eq⟩
          simp only [Table.names, List.mem_map] at hk
          obtain ⟨x, hx, rfl⟩ := hk
          exact (hwe.2.1.2 x hx).2
        · exact docEntries_header (ls := ls) hw' h

theorem IsPath.idx_ne_nkey {X : Str} (hX : IsPath X) (i : Nat) {N : List Str} (hN : NamesWf N) : indexed X i ≠ nkey N := by
  intro h
  obtain ⟨P, h1, h2, rfl⟩ := hX
  have := keyOf_inj (h1.pushKey h2 (k := .idx i) (by simp)) hN.path (by rw [keyOf_append]; exact h)
  have hm : Key.idx i ∈ names N := by rw [← this]; simp
  simp [names] at hm

end Tomllib
