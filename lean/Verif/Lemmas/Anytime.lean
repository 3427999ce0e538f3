import Verif.Lemmas.Commute
/-!
# What is at a key, at any moment of a history
-/

namespace Tomllib

theorem Sections.heads_ne : ∀ (ls : List (Str × ET)) (D : Sections), [] ∉ D.heads → [] ∉ (ls.foldl (fun D l => D.step l.2) D).heads
  | [], _, h => h
  | (nl, e) :: ls, D, h => by
    refine Sections.heads_ne ls (D.step e) ?_
    unfold Sections.step
    split <;> simp_all [Sections.target]

/-- Every key is that of a path, or there is nothing at it. -/
theorem Hist.getValue {ls : List (Str × ET)} {p : Parser} {fp : List Addr} (h : Hist ls p fp) (K : Str) :
    (∃ q t, PathWf q ∧ q ≠ [] ∧ K = keyOf [] q ∧ (Sections.read ls).valueAt q = some t ∧ p.getValue K = .ok (some t.value)) ∨
    (∃ q, PathWf q ∧ q ≠ [] ∧ K = keyOf [] q ∧ q ∈ (Sections.read ls).heads ∧ p.getValue K = .panic .tableToVal) ∨
    (p.getValue K = .ok none ∧ ∀ q, PathWf q → q ≠ [] → K = keyOf [] q → (Sections.read ls).valueAt q = none ∧ q ∉ (Sections.read ls).heads) := by
  by_cases hq : ∃ q, PathWf q ∧ q ≠ [] ∧ K = keyOf [] q
  · obtain ⟨q, hq, hne, rfl⟩ := hq
    have := h.answers.value q hq hne
    have huniq : ∀ r, PathWf r → r ≠ [] → keyOf [] q = keyOf [] r → r = q := fun r hr hr' e =>
      parP_inj hr hq (by unfold parP; rw [if_neg hr', if_neg hne, e])
    cases hv : (Sections.read ls).valueAt q with
    | some t => rw [hv] at this; exact .inl ⟨q, t, hq, hne, rfl, hv, this⟩
    | none =>
      rw [hv] at this
      dsimp only at this
      split at this
      next hh => exact .inr (.inl ⟨q, hq, hne, rfl, hh, this⟩)
      next hh => exact .inr (.inr ⟨this, fun r hr hr' e => by rw [huniq r hr hr' e]; exact ⟨hv, hh⟩⟩)
  · refine .inr (.inr ⟨?_, fun q h1 h2 h3 => absurd ⟨q, h1, h2, h3⟩ hq⟩)
    by_cases hr : K = root
    · subst hr
      have hs := (h.good.slot [] trivial).tab (.inl rfl)
      obtain ⟨v, l, e1, e2, e3, e4⟩ := hs
      have : v = none := e4 (Sections.heads_ne ls {} (by simp))
      subst this
      have : p.st.map.get? root = some ⟨none, .keys l⟩ := e1
      simp [Parser.getValue, this]
    · have : p.st.map.get? K = none := by
        cases hg : p.st.map.get? K with
        | none => rfl
        | some x =>
          obtain ⟨q, h1, h2⟩ := h.only K (by rw [hg]; simp)
          unfold parP at h2
          split at h2
          · exact absurd h2 hr
          next hne => exact absurd ⟨q, h1, hne, h2⟩ hq
      simp [Parser.getValue, this]

theorem Elems.part_value : ∀ (es : Elems) (n : Nat), (es.part n []).map VT.value = es.values[n]?
  | .nil, n => by simp [Elems.part, Elems.values]
  | .cons v _ _ r, 0 => by simp [Elems.part, Elems.values, VT.part_nil]
  | .cons v _ _ r, n + 1 => by simp [Elems.part, Elems.values, Elems.part_value r n]

theorem Pairs.part_value : ∀ (kvs : Pairs) (k : Str), (kvs.part k []).map VT.value = (kvs.values.find? fun e => e.1 = k).map (·.2)
  | .nil, k => by simp [Pairs.part, Pairs.values]
  | .cons k' _ v _ _ r, k => by
    rw [Pairs.part, Pairs.values, List.find?_cons]
    by_cases h : k' = k
    · simp [h, VT.part_nil]
    · simp [h, Pairs.part_value r k]

theorem Elems.values_length : ∀ (es : Elems), es.values.length = es.kinds.length
  | .nil => rfl
  | .cons _ _ _ r => by simp [Elems.values, Elems.kinds, Elems.values_length r]

theorem Pairs.values_keys : ∀ (kvs : Pairs), kvs.values.map (·.1) = kvs.keys
  | .nil => rfl
  | .cons _ _ _ _ _ r => by simp [Pairs.values, Pairs.keys, Pairs.values_keys r]

theorem Scalar.value_arr (s : Scalar) (vs : List Value) : s.value ≠ .arr vs := by cases s <;> simp [Scalar.value]
theorem Scalar.value_itab (s : Scalar) (vs : List (Str × Value)) : s.value ≠ .itab vs := by cases s <;> simp [Scalar.value]

/-- `get_value` panics exactly at the keys of the tables with a header. -/
theorem Hist.panics_iff {ls : List (Str × ET)} {p : Parser} {fp : List Addr} (hh : Hist ls p fp) (K : Str) :
    (∃ x, p.getValue K = .panic x) ↔ ∃ q ∈ (Sections.read ls).heads, K = keyOf [] q := by
  constructor
  · rintro ⟨x, hx⟩
    rcases hh.getValue K with ⟨_, _, _, _, _, _, h1⟩ | ⟨q, _, _, h2, h3, _⟩ | ⟨h1, _⟩
    · rw [hx] at h1; simp at h1
    · exact ⟨q, h3, h2⟩
    · rw [hx] at h1; simp at h1
  · rintro ⟨q, hq, rfl⟩
    have hw : PathWf q := hh.good.wf q (.inr (.inl hq))
    have hne : q ≠ [] := by
      rintro rfl
      exact Sections.heads_ne ls {} (by simp) hq
    have hv := hh.answers.value q hw hne
    rw [(hh.good.slot q hw).val_tab (.inr (.inl hq))] at hv
    simp only [hq, if_true] at hv
    exact ⟨_, hv⟩

/-- Whole values and their parts agree. -/
theorem Hist.parts {ls : List (Str × ET)} {p : Parser} {fp : List Addr} (hh : Hist ls p fp) (K : Str) :
    (∀ vs, p.getValue K = .ok (some (.arr vs)) →
      (∀ n, p.getValue (indexed K n) = .ok vs[n]?) ∧ p.getChildren K = some (.count vs.length) ∧
      ∀ k, KeyWf k → p.getValue (dotted K k) = .ok none) ∧
    (∀ kvs, p.getValue K = .ok (some (.itab kvs)) →
      (∀ k, KeyWf k → p.getValue (dotted K k) = .ok ((kvs.find? fun e => e.1 = k).map (·.2))) ∧ p.getChildren K = some (.keys (kvs.map (·.1))) ∧
      ∀ n, p.getValue (indexed K n) = .ok none) ∧
    (∀ v, p.getValue K = .ok (some v) → v.scalar?.isSome = true →
      p.getChildren K = some (.count 0) ∧ (∀ n, p.getValue (indexed K n) = .ok none) ∧ ∀ k, KeyWf k → p.getValue (dotted K k) = .ok none) := by
  have key : ∀ v, p.getValue K = .ok (some v) → ∃ t : VT, t.value = v ∧ p.getChildren K = some t.children ∧
      (∀ n, p.getValue (indexed K n) = .ok ((t.part [.idx n]).map VT.value)) ∧
      ∀ k, KeyWf k → p.getValue (dotted K k) = .ok ((t.part [.str k]).map VT.value) := by
    intro v hv
    rcases hh.getValue K with ⟨q, t, hq, hne, rfl, h1, h2⟩ | ⟨_, _, _, _, _, h1⟩ | ⟨h1, _⟩
    · rw [hv] at h2
      simp only [Out.ok.injEq, Option.some.injEq] at h2
      have hch := hh.answers.children q hq hne
      rw [Sections.childrenAt, h1] at hch
      have hpart : ∀ x : Key, PathWf (q ++ [x]) → p.getValue (keyOf [] (q ++ [x])) = .ok ((t.part [x]).map VT.value) := by
        intro x hx
        have h3 := hh.answers.value (q ++ [x]) hx (by simp)
        rw [hh.below h1] at h3
        cases ht : t.part [x] with
        | some t' => rw [ht] at h3; exact h3
        | none =>
          rw [ht] at h3
          dsimp only at h3
          rw [if_neg] at h3
          · exact h3
          · intro hhd
            exact hh.good.off hh.plain hq h1 (.inr (.inr (.inl hhd))) (List.prefix_append _ _)
      refine ⟨t, h2.symm, hch, fun n => ?_, fun k hk => ?_⟩
      · have := hpart (.idx n) (by cases q with
          | nil => exact absurd rfl hne
          | cons a q => cases a with
            | str k => exact ⟨hq.1, by simpa using hq.2⟩
            | idx i => exact hq.elim)
        rw [keyOf, List.foldl_append] at this
        exact this
      · have := hpart (.str k) (by cases q with
          | nil => exact absurd rfl hne
          | cons a q => cases a with
            | str k' => exact ⟨hq.1, by
                intro s hs
                rcases List.mem_append.mp hs with hs | hs
                · exact hq.2 s hs
                · simp at hs; subst hs; exact hk⟩
            | idx i => exact hq.elim)
        rw [keyOf, List.foldl_append] at this
        exact this
    · rw [hv] at h1; simp at h1
    · rw [hv] at h1; simp at h1
  refine ⟨fun vs hv => ?_, fun kvs hv => ?_, fun v hv hs => ?_⟩
  · obtain ⟨t, h1, h2, h3, h4⟩ := key _ hv
    cases t with
    | leaf s => exact absurd h1 (Scalar.value_arr s vs)
    | itab kvs ws => simp [VT.value] at h1
    | arr es c1 c2 =>
      simp only [VT.value, Value.arr.injEq] at h1
      subst h1
      refine ⟨fun n => ?_, ?_, fun k hk => ?_⟩
      · rw [h3, VT.part, Elems.part_value]
      · rw [h2, VT.children, Elems.values_length]
      · rw [h4 k hk]; simp [VT.part]
  · obtain ⟨t, h1, h2, h3, h4⟩ := key _ hv
    cases t with
    | leaf s => exact absurd h1 (Scalar.value_itab s kvs)
    | arr es c1 c2 => simp [VT.value] at h1
    | itab ks ws =>
      simp only [VT.value, Value.itab.injEq] at h1
      subst h1
      refine ⟨fun k hk => ?_, ?_, fun n => ?_⟩
      · rw [h4 k hk, VT.part, Pairs.part_value]
      · rw [h2, VT.children, Pairs.values_keys]
      · rw [h3]; simp [VT.part]
  · obtain ⟨t, h1, h2, h3, h4⟩ := key _ hv
    cases t with
    | leaf s => exact ⟨h2, fun n => by rw [h3]; simp [VT.part], fun k hk => by rw [h4 k hk]; simp [VT.part]⟩
    | arr es c1 c2 => subst h1; simp [VT.value, Value.scalar?] at hs
    | itab ks ws => subst h1; simp [VT.value, Value.scalar?] at hs

end Tomllib
