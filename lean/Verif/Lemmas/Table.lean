import Verif.Lemmas.Entries
/-!
# The key table between lines: names of children and entries match
-/

namespace Tomllib

theorem keyHasValue_eq (m : KMap) (h : Heap) (x : Str) : keyHasValue m h x = true ↔ ∃ a, valOf m x = some a ∧ h[a]? ≠ some .table := by
  unfold keyHasValue
  split
  next a c hg => simp [valOf, hg]
  next hno =>
    simp only [Bool.false_eq_true, false_iff]
    rintro ⟨a, ha, _⟩
    obtain ⟨s, hs⟩ := valOf_some.mp ha
    exact hno a s hs

theorem keyHasValue_mono {m m' : KMap} {h : Heap} {x : Str} (hm : ∀ a, valOf m x = some a → valOf m' x = some a)
    (hk : keyHasValue m h x = true) : keyHasValue m' h x = true := by
  rw [keyHasValue_eq] at hk ⊢
  obtain ⟨a, h1, h2⟩ := hk
  exact ⟨a, hm a h1, h2⟩

theorem Free.anti {m m' : KMap} {h : Heap} {Q : List Str} (hm : ∀ x a, valOf m x = some a → valOf m' x = some a) (hf : Free m' h Q) : Free m h Q := by
  intro a b ha e
  have := hf a b ha e
  cases hk : keyHasValue m h (nkey a) with
  | false => rfl
  | true =>
    rw [keyHasValue_mono (hm (nkey a)) hk] at this
    simp at this

/-- A name is among the children kept in an entry. -/
def hasName (m : KMap) (p k : Str) : Prop := ∃ v ks, m.get? p = some ⟨v, .keys ks⟩ ∧ k ∈ ks

/-- The children kept in an entry, if there is one, are names. -/
def keysK (m : KMap) (p : Str) : Prop := ∀ hv, m.get? p = some hv → ∃ ks, hv.subkeys = .keys ks

/-- Entries stay, and names of children stay. -/
structure Mono (m m' : KMap) : Prop where
  some : ∀ x, m.get? x ≠ none → m'.get? x ≠ none
  keys : ∀ x v ks, m.get? x = .some ⟨v, .keys ks⟩ → ∃ v' ks', m'.get? x = .some ⟨v', .keys ks'⟩ ∧ ∀ k ∈ ks, k ∈ ks'

theorem Mono.refl (m : KMap) : Mono m m := ⟨fun _ h => h, fun _ v ks h => ⟨v, ks, h, fun _ h => h⟩⟩
theorem Mono.trans {a b c : KMap} (h : Mono a b) (h' : Mono b c) : Mono a c := by
  refine ⟨fun x hx => h'.some x (h.some x hx), fun x v ks hx => ?_⟩
  obtain ⟨v1, ks1, h1, h2⟩ := h.keys x v ks hx
  obtain ⟨v2, ks2, h3, h4⟩ := h'.keys x v1 ks1 h1
  exact ⟨v2, ks2, h3, fun k hk => h4 k (h2 k hk)⟩

theorem Mono.hasName {m m' : KMap} (h : Mono m m') {p k : Str} (hn : hasName m p k) : Tomllib.hasName m' p k := by
  obtain ⟨v, ks, h1, h2⟩ := hn
  obtain ⟨v', ks', h3, h4⟩ := h.keys p v ks h1
  exact ⟨v', ks', h3, h4 k h2⟩

theorem Mono.insert {m : KMap} {p : Str} {hv : HashValue} (h : ∀ v ks, m.get? p = .some ⟨v, .keys ks⟩ → ∃ ks', hv.subkeys = .keys ks' ∧ ∀ k ∈ ks, k ∈ ks') :
    Mono m (m.insert p hv) := by
  refine ⟨fun x hx => ?_, fun x v ks hx => ?_⟩
  · rw [SMap.get?_insert]; split
    · simp
    · exact hx
  · rw [SMap.get?_insert]; split
    next e =>
      subst e
      obtain ⟨ks', h1, h2⟩ := h v ks hx
      obtain ⟨v', c⟩ := hv
      dsimp only at h1; subst h1
      exact ⟨v', ks', rfl, h2⟩
    · exact ⟨v, ks, hx, fun _ h => h⟩

theorem updateParent_mono (m : KMap) (P : Str) (last : Key) : Mono m (updateParent m P last) := by
  unfold updateParent
  split
  next hv hg =>
    split
    next c _ hc =>
      refine Mono.insert fun v ks h => ?_
      rw [hg] at h; simp at h; subst h; simp at hc
    next ks s hc =>
      refine Mono.insert fun v ks' h => ?_
      rw [hg] at h; simp at h; subst h; simp at hc; subst hc
      exact ⟨_, rfl, fun k hk => mem_insertUniq.mpr (.inl hk)⟩
    · exact .refl _
  next hg =>
    split <;> exact Mono.insert fun v ks h => by rw [hg] at h; simp at h

theorem putVal_mono (m : KMap) (h : Heap) (K : Str) (a : Addr) : Mono m (putVal m h K a) := by
  unfold putVal
  split
  next hv hg =>
    refine Mono.insert fun v ks h => ?_
    rw [hg] at h; simp at h; subst h
    exact ⟨ks, rfl, fun _ h => h⟩
  next hg =>
    split <;> exact Mono.insert fun v ks h => by rw [hg] at h; simp at h

theorem insertKeyval_mono {st st' : PState} {a : Addr} (h : insertKeyval st a = .ok st') : Mono st.map st'.map := by
  simp only [insertKeyval, Out.bind_eq, Out.bind_ok] at h
  obtain ⟨⟨full, parent⟩, _, h⟩ := h
  split at h
  · rw [Out.bind_ok] at h
    obtain ⟨v, _, h⟩ := h
    simp at h; subst h; exact .refl _
  · split at h
    · simp at h
    · simp at h; subst h
      exact (putVal_mono st.map st.heap full a).trans (updateParent_mono _ _ _)

theorem arrayValueAct_mono {a : Addr} {st st' : PState} (h : arrayValueAct a st = .ok st') : Mono st.map st'.map := by
  simp only [arrayValueAct, Out.bind_eq, Out.bind_ok] at h
  obtain ⟨v, _, t, _, st1, h1, st2, h2, h⟩ := h
  have e1 := checkMixed_map h1
  have e2 := insertKeyval_mono h2
  dsimp only at e2
  rw [e1] at e2
  split at h
  · simp at h
  · simp at h; subst h; exact e2

theorem keyvalAct_mono {k : Str} {a : Addr} {st st' : PState} (h : keyvalAct k a st = .ok st') : Mono st.map st'.map := by
  simp only [keyvalAct, Out.bind_eq, Out.bind_ok] at h
  obtain ⟨st1, h1, h⟩ := h
  simp at h; subst h
  show Mono st.map st1.map
  split at h1
  · split at h1
    · simp at h1
    all_goals first
      | (rw [Out.bind_ok] at h1; obtain ⟨_, _, h1⟩ := h1; simp at h1; subst h1; exact .refl _)
      | (simp at h1; subst h1; exact .refl _)
  · exact insertKeyval_mono h1

mutual
theorem VT.eff_mono : ∀ (t : VT) {st st' : PState}, t.eff st = .ok st' → Mono st.map st'.map
  | .leaf s, st, st', h => by
    rw [VT.eff, Out.bind_ok] at h
    obtain ⟨st1, h1, h⟩ := h
    simp at h; subst h
    have hm : (st1.cell s.cell).map = st.map := (show _ = st1.map from rfl).trans (Scalar.eff_map h1)
    rw [hm]; exact .refl _
  | .arr es c1 c2, st, st', h => by
    rw [VT.eff, Out.bind_ok] at h
    obtain ⟨st1, h1, h⟩ := h
    simp at h; subst h
    have := Elems.eff_mono es h1
    exact this
  | .itab kvs ws, st, st', h => by
    rw [VT.eff, Out.bind_ok] at h
    obtain ⟨st1, h1, h⟩ := h
    simp at h; subst h
    have := Pairs.eff_mono kvs h1
    exact this
theorem Elems.eff_mono : ∀ (t : Elems) {st st' : PState}, t.eff st = .ok st' → Mono st.map st'.map
  | .nil, st, st', h => by simp [Elems.eff] at h; subst h; exact .refl _
  | .cons v sep cn r, st, st', h => by
    rw [Elems.eff, Out.bind_ok] at h
    obtain ⟨st1, h1, h⟩ := h
    rw [Out.bind_ok] at h
    obtain ⟨st2, h2, h⟩ := h
    exact ((VT.eff_mono v h1).trans (arrayValueAct_mono h2)).trans (Elems.eff_mono r h)
theorem Pairs.eff_mono : ∀ (t : Pairs) {st st' : PState}, t.eff st = .ok st' → Mono st.map st'.map
  | .nil, st, st', h => by simp [Pairs.eff] at h; subst h; exact .refl _
  | .cons k ws v sep cn r, st, st', h => by
    rw [Pairs.eff, Out.bind_ok] at h
    obtain ⟨st1, h1, h⟩ := h
    rw [Out.bind_ok] at h
    obtain ⟨st2, h2, h⟩ := h
    have := (VT.eff_mono v h1)
    exact (Mono.trans (a := st.map) this (keyvalAct_mono h2)).trans (Pairs.eff_mono r h)
end

/-! ## Keys below a path -/

mutual
theorem VT.aents_below : ∀ (t : VT) (p : List Key) (n : Nat), t.wf → ∀ e ∈ t.aents (keyOf [] p) n, ∃ q, q ≠ [] ∧ (∀ s, Key.str s ∈ q → KeyWf s) ∧ e.1 = keyOf [] (p ++ q)
  | .leaf _, p, n, hw, e, he => by simp [VT.aents] at he
  | .arr es _ _, p, n, hw, e, he => by
    rw [VT.wf] at hw
    exact Elems.aents_below es p 0 n hw.2.1 e he
  | .itab kvs _, p, n, hw, e, he => by
    rw [VT.wf] at hw
    exact Pairs.aents_below kvs p n hw.2 e he
theorem Elems.aents_below : ∀ (t : Elems) (p : List Key) (i n : Nat), t.wf → ∀ e ∈ t.aents (keyOf [] p) i n, ∃ q, q ≠ [] ∧ (∀ s, Key.str s ∈ q → KeyWf s) ∧ e.1 = keyOf [] (p ++ q)
  | .nil, p, i, n, hw, e, he => by simp [Elems.aents] at he
  | .cons v _ _ r, p, i, n, hw, e, he => by
    rw [Elems.wf] at hw
    have hK : keyOf [] (p ++ [.idx i]) = indexed (keyOf [] p) i := by rw [keyOf_append]; rfl
    rw [Elems.aents, ← hK, List.mem_append, List.mem_cons] at he
    rcases he with he | rfl | he
    · obtain ⟨q, _, h2, h3⟩ := VT.aents_below v (p ++ [.idx i]) n hw.1 e he
      exact ⟨.idx i :: q, by simp, fun s hs => h2 s (by simpa using hs), by rw [h3]; simp⟩
    · exact ⟨[.idx i], by simp, by simp, rfl⟩
    · exact Elems.aents_below r p (i + 1) _ hw.2.2.2 e he
theorem Pairs.aents_below : ∀ (t : Pairs) (p : List Key) (n : Nat), t.wf → ∀ e ∈ t.aents (keyOf [] p) n, ∃ q, q ≠ [] ∧ (∀ s, Key.str s ∈ q → KeyWf s) ∧ e.1 = keyOf [] (p ++ q)
  | .nil, p, n, hw, e, he => by simp [Pairs.aents] at he
  | .cons k _ v _ _ r, p, n, hw, e, he => by
    rw [Pairs.wf] at hw
    have hK : keyOf [] (p ++ [.str k]) = dotted (keyOf [] p) k := by rw [keyOf_append]; rfl
    rw [Pairs.aents, ← hK, List.mem_append, List.mem_cons] at he
    rcases he with he | rfl | he
    · obtain ⟨q, _, h2, h3⟩ := VT.aents_below v (p ++ [.str k]) n hw.2.2.1 e he
      refine ⟨.str k :: q, by simp, fun s hs => ?_, by rw [h3]; simp⟩
      simp at hs
      rcases hs with rfl | hs
      · exact hw.1
      · exact h2 s hs
    · exact ⟨[.str k], by simp, by simp; exact hw.1, rfl⟩
    · exact Pairs.aents_below r p _ hw.2.2.2.2.2 e he
end

/-- The value of a key is not changed by what is inside of the value being read. -/
theorem VT.eff_val_self {t : VT} {T : List Str} {st st' : PState} (hc : Ctx T st) (hk : PathWf st.keychain) (hne : st.keychain ≠ []) (hw : t.wf)
    (h : t.eff st = .ok st') : valOf st'.map (keyOf [] (names T ++ st.keychain)) = valOf st.map (keyOf [] (names T ++ st.keychain)) := by
  rw [(t.eff_val hc hk hne hw h).1]
  have hl : lookup (keyOf [] (names T ++ st.keychain)) (t.aents (keyOf [] (names T ++ st.keychain)) st.heap.length) = none := by
    rw [lookup_none]
    intro v hv
    obtain ⟨q, h1, h2, h3⟩ := t.aents_below _ _ hw _ hv
    have hp : PathWf (names T ++ st.keychain) := by
      by_cases hT : T = []
      · subst hT; exact hk
      · exact hc.2.2.1.path.append (by simpa [names] using hT) hk.names
    have := keyOf_inj hp (hp.append (by simp [hne]) h2) h3
    simp at this
    exact h1 this
  rw [hl]; simp

/-! ## Arrays -/

/-- How the entry of an array changes while its elements are entered. -/
def Grow (m m' : KMap) (p : Str) : Prop :=
  m'.get? p = m.get? p ∨ (∃ v c c', m.get? p = some ⟨v, .count c⟩ ∧ m'.get? p = some ⟨v, .count c'⟩) ∨
  (m.get? p = none ∧ ∃ c, m'.get? p = some ⟨none, .count c⟩)

theorem Grow.trans {a b c : KMap} {p : Str} (h : Grow a b p) (h' : Grow b c p) : Grow a c p := by
  rcases h with h | ⟨v, n, n', h1, h2⟩ | ⟨h1, n, h2⟩
  · rcases h' with g | ⟨v, n, n', g1, g2⟩ | ⟨g1, n, g2⟩
    · exact .inl (g.trans h)
    · exact .inr (.inl ⟨v, n, n', h ▸ g1, g2⟩)
    · exact .inr (.inr ⟨h ▸ g1, n, g2⟩)
  · rcases h' with g | ⟨w, l, l', g1, g2⟩ | ⟨g1, l, g2⟩
    · exact .inr (.inl ⟨v, n, n', h1, g.trans h2⟩)
    · rw [h2] at g1; simp at g1; obtain ⟨rfl, rfl⟩ := g1
      exact .inr (.inl ⟨_, n, l', h1, g2⟩)
    · rw [h2] at g1; simp at g1
  · rcases h' with g | ⟨w, l, l', g1, g2⟩ | ⟨g1, l, g2⟩
    · exact .inr (.inr ⟨h1, n, g.trans h2⟩)
    · rw [h2] at g1; simp at g1; obtain ⟨rfl, rfl⟩ := g1
      exact .inr (.inr ⟨h1, l', g2⟩)
    · rw [h2] at g1; simp at g1

theorem updateParent_grow (m : KMap) (P : Str) (i : Nat) : Grow m (updateParent m P (.idx i)) P := by
  unfold updateParent
  split
  next hv hg =>
    obtain ⟨v, c⟩ := hv
    split
    next c _ hc =>
      dsimp only at hc; subst hc
      exact .inr (.inl ⟨v, _, _, hg, by rw [SMap.get?_insert, if_pos rfl]⟩)
    next heq => cases heq
    · exact .inl rfl
  next hg =>
    exact .inr (.inr ⟨hg, 1, by simp [SMap.get?_insert]⟩)

theorem keyOf_not_below {p q : List Key} (hp : PathWf p) (hne : p ≠ []) (hq : q ≠ []) : keyOf [] p ≠ keyOf [] (p ++ q) := by
  intro e
  have e' := congrArg List.length e
  rw [keyOf_append, keyOf_rest q (keyOf_ne_nil hp hne), List.length_append] at e'
  cases q with
  | nil => exact hq rfl
  | cons k q =>
    have : 0 < (restStr (k :: q)).length := by
      cases k <;> simp [restStr, idxStr] <;> omega
    omega

theorem full_wf {T : List Str} {kc : List Key} (hT : NamesWf T) (hk : PathWf kc) : PathWf (names T ++ kc) := by
  by_cases h : T = []
  · subst h; exact hk
  · exact hT.path.append (by simpa [names] using h) hk.names

theorem arrayValueAct_grow {T : List Str} {st st' : PState} {a : Addr} {kc : List Key} {i : Nat} (h : Ctx T st) (hk : PathWf kc) (hne : kc ≠ [])
    (hkc : st.keychain = kc ++ [.idx i]) (hs : arrayValueAct a st = .ok st') :
    Grow st.map st'.map (keyOf [] (names T ++ kc)) ∧
    ∀ x, x ≠ keyOf [] (names T ++ kc) → x ≠ keyOf [] (names T ++ kc ++ [.idx i]) → st'.map.get? x = st.map.get? x := by
  simp only [arrayValueAct, Out.bind_eq, Out.bind_ok] at hs
  obtain ⟨v, _, t, _, st1, h1, st2, h2, hs⟩ := hs
  have f1 := checkMixed_frame h1
  have m1 := checkMixed_map h1
  have c1 : Ctx T { st1 with lastArrayType := st1.lastArrayType.dropLast ++ [t] } := (h.frame f1).congr rfl rfl rfl rfl
  have k1 : st1.keychain = kc ++ [.idx i] := f1.keychain.trans hkc
  have hpw : PathWf st1.keychain := by rw [k1]; exact hk.append hne (by simp)
  have hne1 : st1.keychain ≠ [] := by rw [k1]; simp
  have hr := insertKeyval_ctx c1 hpw hne1 h2
  have f2 := insertKeyval_frame h2
  have k2 : st2.keychain = kc ++ [.idx i] := f2.keychain.trans k1
  rw [k2] at hs
  simp at hs
  subst hs
  have hne' : names T ++ kc ≠ [] := by simp [hne]
  have hlast : ∀ hh : st1.keychain ≠ [], st1.keychain.getLast hh = .idx i := by
    intro hh
    have : st1.keychain.getLast? = some (.idx i) := by rw [k1]; simp
    rw [List.getLast?_eq_some_getLast hh] at this
    simpa using this
  rcases hr with ⟨_, hr⟩ | ⟨_, v, _, hr⟩
  · subst hr
    dsimp only
    rw [hlast, m1]
    simp only [k1, List.dropLast_concat, parP, if_neg hne']
    have hd : keyOf [] (names T ++ (kc ++ [.idx i])) ≠ keyOf [] (names T ++ kc) := by
      intro e
      have hw := full_wf h.2.2.1 hk
      have hw2 : PathWf (names T ++ (kc ++ [.idx i])) := full_wf h.2.2.1 (hk.append hne (by simp))
      have := keyOf_inj hw2 hw e
      simp at this
    refine ⟨?_, fun x hx hx' => ?_⟩
    · have g := updateParent_grow (putVal st.map st1.heap (keyOf [] (names T ++ (kc ++ [.idx i]))) a) (keyOf [] (names T ++ kc)) i
      have e := get_putVal_other (m := st.map) (h := st1.heap) (a := a) hd
      unfold Grow at g ⊢
      rw [e] at g
      exact g
    · rw [get_updateParent_other (Ne.symm hx), get_putVal_other (by rw [← List.append_assoc]; exact Ne.symm hx')]
  · subst hr
    dsimp only
    rw [m1]
    exact ⟨.inl rfl, fun x _ _ => rfl⟩

theorem Elems.eff_grow : ∀ (t : Elems) {T : List Str} {st st' : PState} {kc : List Key} {i : Nat}, Ctx T st → PathWf kc → kc ≠ [] →
    st.keychain = kc ++ [.idx i] → t.wf → t.eff st = .ok st' →
    Grow st.map st'.map (keyOf [] (names T ++ kc)) ∧
    ∀ x, x ≠ keyOf [] (names T ++ kc) → (∀ j q, TailWf q → x ≠ keyOf [] (names T ++ kc ++ .idx j :: q)) → st'.map.get? x = st.map.get? x
  | .nil, T, st, st', kc, i, hc, hk, hne, hkc, hw, h => by
    simp [Elems.eff] at h; subst h
    exact ⟨.inl rfl, fun _ _ _ => rfl⟩
  | .cons v sep cn r, T, st, st', kc, i, hc, hk, hne, hkc, hw, h => by
    rw [Elems.eff, Out.bind_ok] at h
    obtain ⟨st1, h1, h⟩ := h
    rw [Out.bind_ok] at h
    obtain ⟨st2, h2, h⟩ := h
    have hvw : v.wf := by rw [Elems.wf] at hw; exact hw.1
    have hpw : PathWf st.keychain := by rw [hkc]; exact hk.append hne (by simp)
    have f1 := VT.eff_frame h1
    obtain ⟨_, a2⟩ := VT.eff_val v hc hpw (by rw [hkc]; simp) hvw h1
    have hc1 := hc.frame f1
    obtain ⟨b0, _, _⟩ := arrayValueAct_val hc1 hk hne (f1.keychain.trans hkc) h2
    obtain ⟨b1, b2⟩ := arrayValueAct_grow hc1 hk hne (f1.keychain.trans hkc) h2
    have hc2 := hc1.frame' (arrayValueAct_frame h2)
    obtain ⟨d1, d2⟩ := Elems.eff_grow r hc2 hk hne b0 (by rw [Elems.wf] at hw; exact hw.2.2.2) h
    rw [hkc, ← List.append_assoc] at a2
    have hfw := full_wf hc.2.2.1 hk
    have hkeep : st1.map.get? (keyOf [] (names T ++ kc)) = st.map.get? (keyOf [] (names T ++ kc)) := by
      refine a2 _ fun q _ e => ?_
      rw [List.append_assoc] at e
      exact keyOf_not_below hfw (by simp [hne]) (by simp) e
    refine ⟨?_, fun x hx hx' => ?_⟩
    · have g0 : Grow st.map st1.map (keyOf [] (names T ++ kc)) := .inl hkeep
      exact (g0.trans b1).trans d1
    · rw [d2 x hx hx', b2 x hx (hx' i [] (by simp [TailWf])), a2 x fun q hq => by simpa using hx' i q hq]

end Tomllib
