import Verif.Lemmas.Errs
import Verif.Lemmas.Count
import Verif.Lemmas.Twin
import Verif.Spec.Report
/-!
# The entries of a value and the errors about it, exactly
-/

namespace Tomllib

/-- The entry of a path. -/
def KP (m : KMap) (p : List Key) : Option HashValue := m.get? (parP p)

theorem parP_inj {p q : List Key} (hp : PathWf p) (hq : PathWf q) (h : parP p = parP q) : p = q := by
  unfold parP at h
  split at h <;> split at h
  · simp_all
  · exact absurd h.symm (keyOf_ne_root hq)
  · exact absurd h (keyOf_ne_root hp)
  · exact keyOf_inj hp hq h

theorem parP_ne {p : List Key} (h : p ≠ []) : parP p = keyOf [] p := if_neg h

theorem KP_insert {m : KMap} {p q : List Key} (hp : PathWf p) (hq : PathWf q) (v : HashValue) :
    KP (m.insert (parP p) v) q = if p = q then some v else KP m q := by
  unfold KP
  rw [SMap.get?_insert]
  by_cases e : p = q
  · rw [if_pos e, if_pos (by rw [e])]
  · rw [if_neg e, if_neg (fun h => e (parP_inj hp hq h))]

/-- There are entries of paths only. -/
def Only (m : KMap) : Prop := ∀ x, m.get? x ≠ none → ∃ p, PathWf p ∧ x = parP p

theorem Only.insert {m : KMap} (h : Only m) {p : List Key} (hp : PathWf p) (v : HashValue) : Only (m.insert (parP p) v) := by
  intro x hx
  rw [SMap.get?_insert] at hx
  split at hx
  next e => exact ⟨p, hp, e.symm⟩
  · exact h x hx

/-- The parent of a new key. -/
def upd : Option HashValue → Key → Option HashValue
  | some ⟨v, .count c⟩, _ => some ⟨v, .count (c + 1)⟩
  | some ⟨v, .keys ks⟩, .str s => some ⟨v, .keys (insertUniq ks s).1⟩
  | some ⟨v, .keys ks⟩, .idx _ => some ⟨v, .keys ks⟩
  | none, .idx _ => some ⟨none, .count 1⟩
  | none, .str s => some ⟨none, .keys [s]⟩

theorem KP_updateParent {m : KMap} {p q : List Key} (hp : PathWf p) (hq : PathWf q) (l : Key) :
    KP (updateParent m (parP p) l) q = if p = q then upd (KP m p) l else KP m q := by
  unfold updateParent
  show _ = if p = q then upd (m.get? (parP p)) l else KP m q
  split
  next hv hg =>
    rw [hg]
    obtain ⟨v, c⟩ := hv
    cases c with
    | count c => rw [KP_insert hp hq]; rfl
    | keys ks =>
      cases l with
      | str s => rw [KP_insert hp hq]; rfl
      | idx i =>
        show KP m q = _
        split
        next e => subst e; exact hg
        · rfl
  next hg =>
    rw [hg]
    cases l <;> (rw [KP_insert hp hq]; rfl)

theorem Only.updateParent {m : KMap} (h : Only m) {p : List Key} (hp : PathWf p) (l : Key) : Only (updateParent m (parP p) l) := by
  unfold Tomllib.updateParent
  split
  · split
    · exact h.insert hp _
    · exact h.insert hp _
    · exact h
  · split <;> exact h.insert hp _

/-- The entry of a new value. -/
def put (o : Option HashValue) (a : Addr) (v : VT) : HashValue :=
  match o with
  | some hv => { hv with value := some a }
  | none => match v with
    | .itab _ _ => ⟨some a, .keys []⟩
    | _ => ⟨some a, .count 0⟩

theorem putVal_eq {m : KMap} {h : Heap} {p : List Key} (hne : p ≠ []) {a : Addr} {v : VT} {fp : List Addr} (hr : v.Rep h a fp) :
    putVal m h (keyOf [] p) a = m.insert (parP p) (put (KP m p) a v) := by
  unfold putVal KP
  rw [parP_ne hne]
  cases m.get? (keyOf [] p) with
  | some hv => rfl
  | none =>
    cases v with
    | leaf s =>
      rw [hr.1]
      cases s <;> rfl
    | arr es c1 c2 =>
      obtain ⟨avs, f, h1, _⟩ := hr
      rw [h1]; rfl
    | itab kvs ws =>
      obtain ⟨avs, f, h1, _⟩ := hr
      rw [h1]; rfl

/-- The keys that follow belong to the table at the path `p`. What this depends on is in the entries above `p`. -/
def At (p : List Key) (st : PState) : Prop :=
  st.arrayError = false ∧ PathWf p ∧ ∀ (m : KMap) (h : Heap) (kc : List Key), (∀ r, r <+: p → r ≠ p → KP m r = KP st.map r) → PathWf kc → kc ≠ [] →
    insertKeys { st with map := m, heap := h, keychain := kc } = .ok (keyOf [] (p ++ kc), parP (p ++ kc.dropLast))

theorem At.wf {p : List Key} {st : PState} (h : At p st) : PathWf p := h.2.1

theorem At.congr {p : List Key} {st st' : PState} (h : At p st) (h1 : st'.lastTable = st.lastTable) (h2 : st'.lastArrayTables = st.lastArrayTables)
    (h3 : st'.lastArrayTablesIndex = st.lastArrayTablesIndex) (h4 : st'.arrayError = st.arrayError)
    (h5 : ∀ r, r <+: p → r ≠ p → KP st'.map r = KP st.map r) : At p st' := by
  refine ⟨h4.trans h.1, h.2.1, fun m hp kc hm hk hne => ?_⟩
  have := h.2.2 m hp kc (fun r hr hn => (hm r hr hn).trans (h5 r hr hn)) hk hne
  rw [← this]
  unfold insertKeys
  simp only [h1, h2, h3]

theorem PathWf.append' {p q : List Key} (h : PathWf p) (hq : PathWf q) : PathWf (p ++ q) := by
  by_cases hp : p = []
  · subst hp; exact hq
  · exact h.append hp hq.names

/-- The stacks of the parser are in step. -/
def Level (st : PState) : Prop := (st.lastTable = none → st.lastArrayTables = []) ∧ st.lastArrayTablesIndex.length = st.lastArrayTables.length

theorem Level.congr {st st' : PState} (h : Level st) (h1 : st'.lastTable = st.lastTable) (h2 : st'.lastArrayTables = st.lastArrayTables)
    (h3 : st'.lastArrayTablesIndex = st.lastArrayTablesIndex) : Level st' := ⟨fun h' => h2.trans (h.1 (h1 ▸ h')), by rw [h2, h3]; exact h.2⟩

theorem Level.fullKey {p : List Key} {st : PState} (hl : Level st) (h : At p st) (hk : PathWf st.keychain) (hne : st.keychain ≠ []) :
    ∃ v P, getFullKey st.map st.heap st.lastArrayTables st.lastArrayTablesIndex st.keychain = .ok (v, keyOf [] (p ++ st.keychain), P) ∧
      (st.keychain.dropLast ≠ [] → P = keyOf [] (p ++ st.keychain.dropLast)) := by
  have hik : insertKeys st = .ok (keyOf [] (p ++ st.keychain), parP (p ++ st.keychain.dropLast)) := h.2.2 st.map st.heap st.keychain (fun _ _ _ => rfl) hk hne
  have hpar : st.keychain.dropLast ≠ [] → parP (p ++ st.keychain.dropLast) = keyOf [] (p ++ st.keychain.dropLast) := fun hd => parP_ne (by simp [hd])
  unfold insertKeys at hik
  split at hik
  next hn =>
    have hz : st.lastArrayTablesIndex = [] := by
      have := hl.2
      rw [hl.1 hn] at this
      exact List.length_eq_zero_iff.mp this
    rw [hl.1 hn, hz]
    simp only [getFullKey, getArrayTableKey, arrayTableKeyLoop, Out.bind_eq, Out.bind]
    simp only [Out.ok.injEq, Prod.mk.injEq] at hik
    refine ⟨_, _, by rw [← hik.1]; rfl, fun hd => ?_⟩
    have h2 := hik.2
    rw [hpar hd] at h2
    split at h2
    · have hwd : PathWf (p ++ st.keychain.dropLast) := by
        have := h.wf.append' hk
        rw [← List.dropLast_concat_getLast hne, ← List.append_assoc] at this
        exact this.left
      exact absurd h2.symm (keyOf_ne_root hwd)
    · exact h2
  next t hn =>
    rw [getFullKey_prefix _ _ _ _ _ _ (Nat.le_of_eq hl.2), Out.bind_eq, Out.bind_ok] at hik
    obtain ⟨⟨v, f, P⟩, hy, h2⟩ := hik
    simp only [Out.ok.injEq, Prod.mk.injEq] at h2
    exact ⟨v, P, by rw [hy, h2.1], fun hd => h2.2.trans (hpar hd)⟩
  next t hn =>
    rw [Out.bind_eq, Out.bind_ok] at hik
    obtain ⟨⟨v, f, P⟩, hy, h2⟩ := hik
    simp only [Out.ok.injEq, Prod.mk.injEq] at h2
    exact ⟨v, P, by rw [hy, h2.1], fun hd => h2.2.trans (hpar hd)⟩

/-- What the check for mixed arrays reports. -/
theorem checkMixed_at {p kc : List Key} {i : Nat} {st : PState} {L : List ArrayType} {p0 k : ArrayType} (hl : Level st) (h : At p st) (hk : PathWf kc) (hne : kc ≠ [])
    (hkc : st.keychain = kc ++ [.idx i]) (hL : st.lastArrayType = L ++ [p0]) :
    checkMixed k st = .ok { st with errors := if p0 = .none ∨ p0 = k then st.errors else mixedAt (p ++ kc) i st.lineCount st.errors } := by
  have hg : st.lastArrayType.getLast? = some p0 := by rw [hL]; simp
  rw [checkMixed, hg]
  dsimp only
  by_cases h0 : p0 = .none ∨ p0 = k
  · rw [if_pos h0, if_pos h0]
  · rw [if_neg h0, if_neg h0]
    obtain ⟨v, P, e1, e2⟩ := hl.fullKey h (by rw [hkc]; exact hk.append hne (by simp)) (by rw [hkc]; simp)
    rw [e1]
    have e3 := e2 (by rw [hkc]; simpa using hne)
    subst e3
    have e4 : p ++ st.keychain = p ++ kc ++ [.idx i] := by rw [hkc, List.append_assoc]
    have e5 : st.keychain.dropLast = kc := by rw [hkc]; simp
    rw [e4, e5]
    dsimp only
    unfold mixedAt
    cases hE : st.errors.getLast? with
    | none => rfl
    | some e =>
      cases e with
      | mixedArray k' l c =>
        dsimp only
        by_cases hb : k'.isPrefixOf (keyOf [] (p ++ kc ++ [.idx i])) = true
        · rw [if_neg (by rw [hb]; simp), if_pos hb]
        · rw [if_pos (by rw [Bool.not_eq_true] at hb; rw [hb]; rfl), if_neg hb]
      | _ => rfl

theorem insertKeyval_at {p : List Key} {st : PState} {a : Addr} {v : VT} {fp : List Addr} (h : At p st) (hk : PathWf st.keychain) (hne : st.keychain ≠ [])
    (hr : v.Rep st.heap a fp) (hn : ∀ b c, KP st.map (p ++ st.keychain) ≠ some ⟨some b, c⟩) :
    ∃ m, insertKeyval st a = .ok { st with map := m } ∧ (Only st.map → Only m) ∧
      ∀ q, PathWf q → KP m q = if q = p ++ st.keychain then some (put (KP st.map (p ++ st.keychain)) a v)
        else if q = p ++ st.keychain.dropLast then upd (KP st.map q) (st.keychain.getLast hne) else KP st.map q := by
  have hw : PathWf (p ++ st.keychain) := h.wf.append' hk
  have hd : (p ++ st.keychain).dropLast = p ++ st.keychain.dropLast := List.dropLast_append_of_ne_nil hne
  have hw' : PathWf (p ++ st.keychain.dropLast) := by
    rw [← hd]
    have hne2 : p ++ st.keychain ≠ [] := by simp [hne]
    have := hw
    rw [← List.dropLast_concat_getLast hne2] at this
    exact this.left
  have hne2 : p ++ st.keychain ≠ [] := by simp [hne]
  have hik := h.2.2 st.map st.heap st.keychain (fun _ _ _ => rfl) hk hne
  refine ⟨updateParent (putVal st.map st.heap (keyOf [] (p ++ st.keychain)) a) (parP (p ++ st.keychain.dropLast)) (st.keychain.getLast hne), ?_, ?_, ?_⟩
  · have hik' : insertKeys st = .ok (keyOf [] (p ++ st.keychain), parP (p ++ st.keychain.dropLast)) := hik
    simp only [insertKeyval, hik', Out.bind_eq, Out.bind]
    have hK : st.map.get? (keyOf [] (p ++ st.keychain)) = KP st.map (p ++ st.keychain) := by rw [KP, parP_ne hne2]
    rw [hK]
    split
    next b c hg => exact absurd hg (hn b c)
    · rw [List.getLast?_eq_some_getLast hne]
      simp only [putVal, hK]
      rfl
  · intro ho
    refine Only.updateParent ?_ hw' _
    rw [putVal_eq hne2 hr]
    exact ho.insert hw _
  · intro q hq
    have hdn : p ++ st.keychain.dropLast ≠ p ++ st.keychain := by
      rw [← hd]
      intro e
      have := congrArg List.length e
      have : 0 < (p ++ st.keychain).length := List.length_pos_iff.mpr hne2
      simp only [List.length_dropLast] at *
      omega
    rw [KP_updateParent hw' hq, putVal_eq hne2 hr, KP_insert hw hw', KP_insert hw hq, if_neg (Ne.symm hdn)]
    by_cases e1 : q = p ++ st.keychain
    · rw [if_pos e1, if_neg (by rw [e1]; exact hdn), if_pos e1.symm]
    · rw [if_neg e1, if_neg (Ne.symm e1)]
      by_cases e2 : q = p ++ st.keychain.dropLast
      · rw [if_pos e2, if_pos e2.symm, e2]
      · rw [if_neg e2, if_neg (Ne.symm e2)]

/-! ## The entries of a value -/

mutual
/-- The entry of a part of a value whose cells start at `n`. -/
def VT.slot (n : Nat) : VT → List Key → Option HashValue
  | t, [] => some ⟨some (t.addr n), t.children⟩
  | .arr es _ _, .idx i :: q => es.slot n i q
  | .itab kvs _, .str k :: q => kvs.slot n k q
  | _, _ => none
def Elems.slot (n : Nat) : Elems → Nat → List Key → Option HashValue
  | .nil, _, _ => none
  | .cons v _ _ _, 0, q => v.slot n q
  | .cons v _ _ r, i + 1, q => r.slot (n + v.size) i q
def Pairs.slot (n : Nat) : Pairs → Str → List Key → Option HashValue
  | .nil, _, _ => none
  | .cons k' _ v _ _ r, k, q => if k' = k then v.slot n q else r.slot (n + v.size) k q
end

mutual
theorem VT.slot_part : ∀ (t : VT) (pre : Heap) (q : List Key), (t.part q = none ∧ t.slot pre.length q = none) ∨
    ∃ t' a, t.part q = some t' ∧ t.slot pre.length q = some ⟨some a, t'.children⟩ ∧ ∀ post, ∃ fp, t'.Rep (pre ++ t.cells pre.length ++ post) a fp
  | t, pre, [] => by
    refine .inr ⟨t, t.addr pre.length, by cases t <;> rfl, by cases t <;> rfl, fun post => ?_⟩
    obtain ⟨fp, h, _⟩ := t.rep_cells pre post
    exact ⟨fp, h⟩
  | .leaf s, pre, k :: q => .inl ⟨by cases k <;> rfl, by cases k <;> rfl⟩
  | .arr es c1 c2, pre, .str k :: q => .inl ⟨rfl, rfl⟩
  | .arr es c1 c2, pre, .idx i :: q => by
    rcases Elems.slot_part es pre i q with ⟨h1, h2⟩ | ⟨t', a, h1, h2, h3⟩
    · exact .inl ⟨h1, h2⟩
    · refine .inr ⟨t', a, h1, h2, fun post => ?_⟩
      obtain ⟨fp, h⟩ := h3 (.arr (es.avs pre.length) c1 c2 :: post)
      exact ⟨fp, by simpa [VT.cells] using h⟩
  | .itab kvs ws, pre, .idx i :: q => .inl ⟨rfl, rfl⟩
  | .itab kvs ws, pre, .str k :: q => by
    rcases Pairs.slot_part kvs pre k q with ⟨h1, h2⟩ | ⟨t', a, h1, h2, h3⟩
    · exact .inl ⟨h1, h2⟩
    · refine .inr ⟨t', a, h1, h2, fun post => ?_⟩
      obtain ⟨fp, h⟩ := h3 (.itab (kvs.tkvs pre.length) ws :: post)
      exact ⟨fp, by simpa [VT.cells] using h⟩
theorem Elems.slot_part : ∀ (t : Elems) (pre : Heap) (i : Nat) (q : List Key), (t.part i q = none ∧ t.slot pre.length i q = none) ∨
    ∃ t' a, t.part i q = some t' ∧ t.slot pre.length i q = some ⟨some a, t'.children⟩ ∧ ∀ post, ∃ fp, t'.Rep (pre ++ t.cells pre.length ++ post) a fp
  | .nil, pre, i, q => .inl ⟨rfl, rfl⟩
  | .cons v sep cn r, pre, 0, q => by
    rcases VT.slot_part v pre q with ⟨h1, h2⟩ | ⟨t', a, h1, h2, h3⟩
    · exact .inl ⟨h1, h2⟩
    · refine .inr ⟨t', a, h1, h2, fun post => ?_⟩
      obtain ⟨fp, h⟩ := h3 (r.cells (pre.length + v.size) ++ post)
      exact ⟨fp, by simpa [Elems.cells] using h⟩
  | .cons v sep cn r, pre, i + 1, q => by
    have := Elems.slot_part r (pre ++ v.cells pre.length) i q
    rw [List.length_append, VT.cells_length] at this
    rcases this with ⟨h1, h2⟩ | ⟨t', a, h1, h2, h3⟩
    · exact .inl ⟨h1, h2⟩
    · refine .inr ⟨t', a, h1, h2, fun post => ?_⟩
      obtain ⟨fp, h⟩ := h3 post
      exact ⟨fp, by simpa [Elems.cells] using h⟩
theorem Pairs.slot_part : ∀ (t : Pairs) (pre : Heap) (k : Str) (q : List Key), (t.part k q = none ∧ t.slot pre.length k q = none) ∨
    ∃ t' a, t.part k q = some t' ∧ t.slot pre.length k q = some ⟨some a, t'.children⟩ ∧ ∀ post, ∃ fp, t'.Rep (pre ++ t.cells pre.length ++ post) a fp
  | .nil, pre, i, q => .inl ⟨rfl, rfl⟩
  | .cons k' ws v sep cn r, pre, k, q => by
    rw [Pairs.part, Pairs.slot]
    split
    · rcases VT.slot_part v pre q with ⟨h1, h2⟩ | ⟨t', a, h1, h2, h3⟩
      · exact .inl ⟨h1, h2⟩
      · refine .inr ⟨t', a, h1, h2, fun post => ?_⟩
        obtain ⟨fp, h⟩ := h3 (r.cells (pre.length + v.size) ++ post)
        exact ⟨fp, by simpa [Pairs.cells] using h⟩
    · have := Pairs.slot_part r (pre ++ v.cells pre.length) k q
      rw [List.length_append, VT.cells_length] at this
      rcases this with ⟨h1, h2⟩ | ⟨t', a, h1, h2, h3⟩
      · exact .inl ⟨h1, h2⟩
      · refine .inr ⟨t', a, h1, h2, fun post => ?_⟩
        obtain ⟨fp, h⟩ := h3 post
        exact ⟨fp, by simpa [Pairs.cells] using h⟩
end

/-- The entry of an array with some elements, before it is entered. -/
def arrShell (i : Nat) : Option HashValue := if i = 0 then none else some ⟨none, .count i⟩
/-- The entry of an inline table with some pairs, before it is entered. -/
def tabShell (ks : List Str) : Option HashValue := if ks = [] then none else some ⟨none, .keys ks⟩
/-- The entry of a value before it is entered. -/
def VT.shell : VT → Option HashValue
  | .leaf _ => none
  | .arr es _ _ => arrShell es.kinds.length
  | .itab kvs _ => tabShell kvs.keys

theorem VT.put_shell (t : VT) (a : Addr) : put t.shell a t = ⟨some a, t.children⟩ := by
  cases t with
  | leaf s => rfl
  | arr es c1 c2 =>
    simp only [VT.shell, arrShell, VT.children]
    split
    next h => rw [h]; rfl
    · rfl
  | itab kvs ws =>
    simp only [VT.shell, tabShell, VT.children]
    split
    next h => rw [h]; rfl
    · rfl

theorem VT.shell_value (t : VT) : ∀ b c, t.shell ≠ some ⟨some b, c⟩ := by
  intro b c
  cases t with
  | leaf s => simp [VT.shell]
  | arr es c1 c2 => simp only [VT.shell, arrShell]; split <;> simp
  | itab kvs ws => simp only [VT.shell, tabShell]; split <;> simp

theorem upd_arrShell (i j : Nat) : upd (arrShell i) (.idx j) = arrShell (i + 1) := by
  unfold arrShell
  split
  next h => subst h; rfl
  · rw [if_neg (by omega)]; rfl

theorem upd_tabShell {ks : List Str} {k : Str} (hk : k ∉ ks) : upd (tabShell ks) (.str k) = tabShell (ks ++ [k]) := by
  unfold tabShell
  rw [if_neg (show ks ++ [k] ≠ [] by simp)]
  split
  next h => subst h; rfl
  · simp [upd, insertUniq, hk]

theorem VT.Rep.kind {h : Heap} {v : VT} {a : Addr} {fp : List Addr} (hr : v.Rep h a fp) : ∃ c, h[a]? = some c ∧ c.arrayType = .ok v.kind := by
  cases v with
  | leaf s =>
    refine ⟨s.cell, hr.1, ?_⟩
    cases s <;> rfl
  | arr es c1 c2 =>
    obtain ⟨vs, f, h1, _⟩ := hr
    exact ⟨_, h1, rfl⟩
  | itab kvs ws =>
    obtain ⟨vs, f, h1, _⟩ := hr
    exact ⟨_, h1, rfl⟩

theorem arrayValueAct_exact {p kc : List Key} {i : Nat} {st : PState} {a : Addr} {v : VT} {fp : List Addr} {L : List ArrayType} {p0 : ArrayType} (hlev : Level st) (h : At p st)
    (hk : PathWf kc) (hne : kc ≠ []) (hkc : st.keychain = kc ++ [.idx i]) (hr : v.Rep st.heap a fp) (hl : st.lastArrayType = L ++ [p0])
    (hs : KP st.map (p ++ kc ++ [.idx i]) = v.shell) :
    ∃ m, arrayValueAct a st = .ok { st with map := m, errors := if p0 = .none ∨ p0 = v.kind then st.errors else mixedAt (p ++ kc) i st.lineCount st.errors, lastArrayType := L ++ [v.kind], keychain := kc ++ [.idx (i + 1)] } ∧ (Only st.map → Only m) ∧
      ∀ q, PathWf q → KP m q = if q = p ++ kc ++ [.idx i] then some ⟨some a, v.children⟩
        else if q = p ++ kc then upd (KP st.map q) (.idx i) else KP st.map q := by
  obtain ⟨c, hc, hck⟩ := hr.kind
  have hpw : PathWf st.keychain := by rw [hkc]; exact hk.append hne (by simp)
  have hne1 : st.keychain ≠ [] := by rw [hkc]; simp
  have hAt : At p { st with errors := if p0 = .none ∨ p0 = v.kind then st.errors else mixedAt (p ++ kc) i st.lineCount st.errors, lastArrayType := L ++ [v.kind] } := h.congr rfl rfl rfl rfl fun _ _ _ => rfl
  have hKP : KP st.map (p ++ st.keychain) = v.shell := by rw [hkc, ← List.append_assoc]; exact hs
  obtain ⟨m, e1, e2, e3⟩ := insertKeyval_at (a := a) (v := v) hAt hpw hne1 hr (by
    intro b c
    show KP st.map (p ++ st.keychain) ≠ _
    rw [hKP]; exact v.shell_value b c)
  refine ⟨m, ?_, e2, fun q hq => ?_⟩
  · have hm := checkMixed_at (k := v.kind) hlev h hk hne hkc hl
    simp only [arrayValueAct, Out.bind_eq, hc, Out.bind, hck, hm]
    rw [show st.lastArrayType.dropLast ++ [v.kind] = L ++ [v.kind] by rw [hl]; simp, e1]
    dsimp only
    rw [hkc]
    simp [Key.inc]
  · have := e3 q hq
    dsimp only at this
    rw [hKP, v.put_shell] at this
    rw [this]
    have hg : st.keychain.getLast hne1 = .idx i := by simp [hkc]
    rw [hg]
    simp only [hkc, List.dropLast_concat, ← List.append_assoc]

theorem keyvalAct_exact {p kc : List Key} {k : Str} {st : PState} {a : Addr} {v : VT} {fp : List Addr} (h : At p st) (hk : PathWf kc) (hkw : KeyWf k)
    (hkc : st.keychain = kc ++ [.str k]) (hr : v.Rep st.heap a fp) (hs : KP st.map (p ++ kc ++ [.str k]) = v.shell) :
    ∃ m, keyvalAct k a st = .ok { st with map := m, keychain := kc } ∧ (Only st.map → Only m) ∧
      ∀ q, PathWf q → KP m q = if q = p ++ kc ++ [.str k] then some ⟨some a, v.children⟩
        else if q = p ++ kc then upd (KP st.map q) (.str k) else KP st.map q := by
  have hpw : PathWf st.keychain := by rw [hkc]; exact hk.push hkw
  have hne1 : st.keychain ≠ [] := by rw [hkc]; simp
  have hKP : KP st.map (p ++ st.keychain) = v.shell := by rw [hkc, ← List.append_assoc]; exact hs
  obtain ⟨m, e1, e2, e3⟩ := insertKeyval_at (a := a) (v := v) h hpw hne1 hr (by
    intro b c
    rw [hKP]; exact v.shell_value b c)
  refine ⟨m, ?_, e2, fun q hq => ?_⟩
  · have he : ¬ st.arrayError = true := by rw [h.1]; simp
    simp only [keyvalAct, Out.bind_eq, if_neg he, e1, Out.bind, hkc, List.dropLast_concat]
  · have := e3 q hq
    rw [hKP, v.put_shell] at this
    rw [this]
    have hg : st.keychain.getLast hne1 = .str k := by simp [hkc]
    rw [hg]
    simp only [hkc, List.dropLast_concat, ← List.append_assoc]

theorem Scalar.eff_report {p : List Key} {s : Scalar} {st : PState} (hl : Level st) (h : At p st) (hk : PathWf st.keychain) (hne : st.keychain ≠ []) :
    ∃ n, s.eff st = .ok { st with lineCount := n, errors := (VT.leaf s).report (p ++ st.keychain) st.lineCount st.errors } := by
  cases s with
  | dt d =>
    refine ⟨st.lineCount, ?_⟩
    rw [Scalar.eff, VT.report, DateTime.real_eq]
    split
    · rfl
    · obtain ⟨v, P, e1, _⟩ := hl.fullKey h hk hne
      rw [e1]; rfl
  | str x ty => cases ty <;> exact ⟨_, rfl⟩
  | _ => exact ⟨st.lineCount, rfl⟩

theorem VT.rep_after {v : VT} {st st' : PState} (h : v.eff st = .ok st') : ∃ fp, v.Rep st'.heap (st'.heap.length - 1) fp := by
  obtain ⟨fp, hr, _⟩ := v.rep_cells st.heap []
  rw [List.append_nil] at hr
  rw [VT.eff_addr h, VT.eff_heap _ _ _ h]
  exact ⟨fp, hr⟩

mutual
theorem VT.depth_size : ∀ t : VT, t.depth ≤ t.size
  | .leaf s => by simp [VT.depth, VT.size]
  | .arr es c1 c2 => by have := es.depth_size; simp [VT.depth, VT.size, this]
  | .itab kvs ws => by have := kvs.depth_size; simp [VT.depth, VT.size, this]
theorem Elems.depth_size : ∀ t : Elems, t.depth ≤ t.size
  | .nil => by simp [Elems.depth, Elems.size]
  | .cons v s c r => by have := v.depth_size; have := r.depth_size; simp only [Elems.depth, Elems.size]; omega
theorem Pairs.depth_size : ∀ t : Pairs, t.depth ≤ t.size
  | .nil => by simp [Pairs.depth, Pairs.size]
  | .cons k w v s c r => by have := v.depth_size; have := r.depth_size; simp only [Pairs.depth, Pairs.size]; omega
end

/-- A value that has just been read can be converted. -/
theorem VT.toVal_after {v : VT} {st st' : PState} (h : v.eff st = .ok st') : toVal st'.heap (st'.heap.length - 1) = .ok v.value := by
  obtain ⟨fp, hr⟩ := VT.rep_after h
  refine v.toVal_rep _ _ fp _ hr ?_
  have := v.depth_size
  rw [VT.eff_heap _ _ _ h, List.length_append, VT.cells_length]
  omega

theorem prefix_not {p kc r q : List Key} (hr : r <+: p) (hn : r ≠ p) : r ≠ p ++ kc ++ q := by
  rintro rfl
  have h1 := hr.length_le
  have : (p ++ kc ++ q).length = p.length := by simp only [List.length_append] at h1 ⊢; omega
  have := hr.eq_of_length this
  exact hn this

mutual
theorem VT.eff_exact : ∀ (t : VT) {p : List Key} {st : PState}, Level st → At p st → PathWf st.keychain → st.keychain ≠ [] → t.wf → t.distinct = true → Only st.map →
    (∀ q, PathWf (p ++ st.keychain ++ q) → KP st.map (p ++ st.keychain ++ q) = none) →
    ∃ st', t.eff st = .ok st' ∧ st'.errors = t.report (p ++ st.keychain) st.lineCount st.errors ∧ st'.lastArrayType = st.lastArrayType ∧ Only st'.map ∧
      KP st'.map (p ++ st.keychain) = t.shell ∧
      (∀ q, q ≠ [] → PathWf (p ++ st.keychain ++ q) → KP st'.map (p ++ st.keychain ++ q) = t.slot st.heap.length q) ∧
      ∀ q, PathWf q → ¬ (p ++ st.keychain) <+: q → KP st'.map q = KP st.map q
  | .leaf s, p, st, hlev, hc, hk, hne, hw, hs, ho, hf => by
    obtain ⟨n, e⟩ := Scalar.eff_report (s := s) hlev hc hk hne
    have hwP : PathWf (p ++ st.keychain) := hc.wf.append' hk
    refine ⟨PState.cell { st with lineCount := n, errors := (VT.leaf s).report (p ++ st.keychain) st.lineCount st.errors } s.cell, by rw [VT.eff, e, Out.bind], rfl, rfl, ho, ?_, fun q hq hw => ?_, fun q _ _ => rfl⟩
    · have := hf [] (by simpa using hwP)
      rw [List.append_nil] at this
      exact this
    · have e1 : KP st.map _ = none := hf q hw
      rw [show (VT.leaf s).slot st.heap.length q = none by cases q with
        | nil => exact absurd rfl hq
        | cons k q => cases k <;> rfl]
      exact e1
  | .arr es c1 c2, p, st, hlev, hc, hk, hne, hw, hs, ho, hf => by
    rw [VT.wf] at hw
    rw [VT.distinct] at hs
    have hwP : PathWf (p ++ st.keychain) := hc.wf.append' hk
    have hnp : ∀ {j : Nat} {q : List Key}, PathWf (p ++ st.keychain ++ .idx j :: q) → KP st.map (p ++ st.keychain ++ .idx j :: q) = none := fun h => hf _ h
    obtain ⟨st1, e1, e2, e3, e4, e5, e6, e7, e8⟩ := Elems.eff_exact es (p := p) (st := st.openArr) (kc := st.keychain) (i := 0) (p0 := .none) (L := st.lastArrayType)
      (hlev.congr rfl rfl rfl) (hc.congr rfl rfl rfl rfl fun _ _ _ => rfl) hk hne rfl hw.2.1 hs ho rfl (by
        have : KP st.map _ = none := hf [] (by simpa using hwP)
        rw [List.append_nil] at this
        exact this) (fun j q _ h => hf _ h)
    refine ⟨st1.closeArr.cell (TVal.arr (Elems.avs st.heap.length es) c1 c2), by rw [VT.eff, e1, Out.bind], e2, ?_, e4, ?_, fun q hq hwq => ?_, fun q hq hn => ?_⟩
    · obtain ⟨x, hx⟩ := e3
      show st1.lastArrayType.dropLast = _
      rw [hx]; simp
    · have : KP st1.map (p ++ st.keychain) = arrShell (0 + es.kinds.length) := e6
      rw [Nat.zero_add] at this
      exact this
    · cases q with
      | nil => exact absurd rfl hq
      | cons k q =>
        cases k with
        | idx j => exact e7 j q (Nat.zero_le _) hwq
        | str k =>
          have : KP st1.map (p ++ st.keychain ++ .str k :: q) = KP st.map _ := e8 _ hwq (by simp) (by simp)
          show KP st1.map _ = _
          rw [this, hf _ hwq]; rfl
    · refine e8 q hq (fun e => hn (by rw [e]; exact List.prefix_refl _)) (fun j q' _ e => hn (by rw [e]; exact List.prefix_append _ _))
  | .itab kvs ws, p, st, hlev, hc, hk, hne, hw, hs, ho, hf => by
    rw [VT.wf] at hw
    rw [VT.distinct] at hs
    have hwP : PathWf (p ++ st.keychain) := hc.wf.append' hk
    obtain ⟨st1, e1, e2, e3, e4, e6, e7, e8⟩ := Pairs.eff_exact kvs (ks := []) hlev hc hk hne hw.2 hs ho (by simp) (by
        have := hf [] (by simpa using hwP)
        rw [List.append_nil] at this
        exact this) (fun k q _ h => hf _ h)
    refine ⟨st1.cell (TVal.itab (Pairs.tkvs st.heap.length kvs) ws), by rw [VT.eff, e1, Out.bind], e2, e3, e4, ?_, fun q hq hwq => ?_, fun q hq hn => ?_⟩
    · rw [List.nil_append] at e6
      exact e6
    · cases q with
      | nil => exact absurd rfl hq
      | cons k q =>
        cases k with
        | str k => exact e7 k q (by simp) hwq
        | idx j =>
          have : KP st1.map (p ++ st.keychain ++ .idx j :: q) = KP st.map _ := e8 _ hwq (by simp) (by simp)
          show KP st1.map _ = _
          rw [this, hf _ hwq]; rfl
    · refine e8 q hq (fun e => hn (by rw [e]; exact List.prefix_refl _)) (fun j q' _ e => hn (by rw [e]; exact List.prefix_append _ _))
theorem Elems.eff_exact : ∀ (t : Elems) {p : List Key} {st : PState} {kc : List Key} {i : Nat} {p0 : ArrayType} {L : List ArrayType},
    Level st → At p st → PathWf kc → kc ≠ [] → st.keychain = kc ++ [.idx i] → t.wf → t.distinct = true → Only st.map →
    st.lastArrayType = L ++ [p0] → KP st.map (p ++ kc) = arrShell i →
    (∀ j q, i ≤ j → PathWf (p ++ kc ++ .idx j :: q) → KP st.map (p ++ kc ++ .idx j :: q) = none) →
    ∃ st', t.eff st = .ok st' ∧ st'.errors = t.report (p ++ kc) i p0 st.lineCount st.errors ∧ (∃ x, st'.lastArrayType = L ++ [x]) ∧ Only st'.map ∧
      st'.keychain = kc ++ [.idx (i + t.kinds.length)] ∧ KP st'.map (p ++ kc) = arrShell (i + t.kinds.length) ∧
      (∀ j q, i ≤ j → PathWf (p ++ kc ++ .idx j :: q) → KP st'.map (p ++ kc ++ .idx j :: q) = t.slot st.heap.length (j - i) q) ∧
      ∀ q, PathWf q → q ≠ p ++ kc → (∀ j q', i ≤ j → q ≠ p ++ kc ++ .idx j :: q') → KP st'.map q = KP st.map q
  | .nil, p, st, kc, i, p0, L, hlev, hc, hk, hne, hkc, hw, hs, ho, hl, hP, hf => by
    refine ⟨st, rfl, rfl, ⟨p0, hl⟩, ho, by simpa [Elems.kinds] using hkc, by simpa [Elems.kinds] using hP, fun j q hj hq => ?_, fun _ _ _ _ => rfl⟩
    rw [hf j q hj hq]; rfl
  | .cons v sep cn r, p, st, kc, i, p0, L, hlev, hc, hk, hne, hkc, hw, hs, ho, hl, hP, hf => by
    rw [Elems.wf] at hw
    rw [Elems.distinct, Bool.and_eq_true] at hs
    have hpw : PathWf st.keychain := by rw [hkc]; exact hk.append hne (by simp)
    have hne1 : st.keychain ≠ [] := by rw [hkc]; simp
    have hwP : PathWf (p ++ kc) := hc.wf.append' hk
    have hwI : ∀ j, PathWf (p ++ kc ++ [.idx j]) := fun j => hwP.append (by simp [hne]) (by simp)
    have hpk : p ++ st.keychain = p ++ kc ++ [.idx i] := by rw [hkc, List.append_assoc]
    obtain ⟨st1, a1, a2, a3, a4, a5, a6, a7⟩ := VT.eff_exact v hlev hc hpw hne1 hw.1 hs.1 ho (by
      intro q hq
      rw [hpk] at hq ⊢
      rw [List.append_assoc] at hq ⊢
      exact hf i q (Nat.le_refl _) hq)
    rw [hpk] at a2 a5 a6 a7
    have f1 := VT.eff_frame a1
    obtain ⟨fp, hr⟩ := VT.rep_after a1
    have hlev1 : Level st1 := hlev.congr f1.lastTable f1.tables f1.index
    have hc1 : At p st1 := hc.congr f1.lastTable f1.tables f1.index f1.err fun r hr hn => a7 r (by
      obtain ⟨q, rfl⟩ := hr
      exact hc.wf.left) (fun ⟨q, e⟩ => prefix_not (kc := kc) (q := [.idx i] ++ q) hr hn (by rw [← e]; simp))
    obtain ⟨m, b1, b2, b3⟩ := arrayValueAct_exact hlev1 hc1 hk hne (f1.keychain.trans hkc) hr (a3.trans hl) a5
    have hn1 : ∀ q, (p ++ kc) ≠ p ++ kc ++ [.idx i] ++ q := fun q e => by
      have := congrArg List.length e
      simp at this
    have hK1 : KP st1.map (p ++ kc) = arrShell i := by
      rw [a7 _ hwP (fun ⟨q, e⟩ => hn1 q e.symm)]; exact hP
    have hl2 : st1.heap.length = st.heap.length + v.size := VT.eff_length a1
    have hc2 : At p { st1 with map := m, errors := if p0 = .none ∨ p0 = v.kind then st1.errors else mixedAt (p ++ kc) i st1.lineCount st1.errors, lastArrayType := L ++ [v.kind], keychain := kc ++ [.idx (i + 1)] } := hc1.congr rfl rfl rfl rfl fun r hr hn => by
      have hrw : PathWf r := by
        obtain ⟨q, rfl⟩ := hr
        exact hc.wf.left
      have h1 : r ≠ p ++ kc ++ [.idx i] := by
        have := prefix_not (kc := kc) (q := [.idx i]) hr hn
        exact this
      have h2 : r ≠ p ++ kc := by
        have := prefix_not (kc := kc) (q := []) hr hn
        simpa using this
      show KP m r = _
      rw [b3 r hrw, if_neg h1, if_neg h2]
    obtain ⟨st3, d1, d2, d3, d4, d5, d6, d7, d8⟩ := Elems.eff_exact r (p0 := v.kind) (L := L) (by exact hlev1.congr rfl rfl rfl) hc2 hk hne rfl hw.2.2.2 hs.2 (b2 a4) rfl (by
        show KP m (p ++ kc) = _
        rw [b3 _ hwP, if_neg (by have := hn1 []; simpa using this), if_pos rfl, hK1, upd_arrShell]) (by
        intro j q hj hq
        show KP m _ = none
        have h1 : p ++ kc ++ .idx j :: q ≠ p ++ kc ++ [.idx i] := by
          intro e
          simp at e
          omega
        have h2 : p ++ kc ++ .idx j :: q ≠ p ++ kc := by simp
        rw [b3 _ hq, if_neg h1, if_neg h2, a7 _ hq, hf j q (by omega) hq]
        rintro ⟨x, e⟩
        simp at e
        omega)
    refine ⟨st3, ?_, ?_, d3, d4, ?_, ?_, ?_, ?_⟩
    · rw [Elems.eff, a1, Out.bind, b1, Out.bind, d1]
    · rw [d2, Elems.report]
      dsimp only
      rw [VT.eff_line a1, a2]
    · rw [d5]; simp [Elems.kinds]; omega
    · rw [d6]; simp only [Elems.kinds, List.length_cons]; congr 1; omega
    · intro j q hj hq
      by_cases hji : j = i
      · subst hji
        rw [Nat.sub_self, Elems.slot]
        have : KP st3.map (p ++ kc ++ .idx j :: q) = KP m _ := d8 _ hq (by simp) (by
          intro j' q' hj' e
          simp at e
          omega)
        rw [this, b3 _ hq]
        by_cases hqn : q = []
        · subst hqn
          rw [if_pos rfl, VT.eff_addr a1]
          cases v <;> rfl
        · rw [if_neg (by simpa using hqn), if_neg (by simp)]
          have := a6 q hqn (by simpa using hq)
          simpa using this
      · have := d7 j q (by omega) hq
        rw [this]
        show r.slot st1.heap.length _ _ = _
        rw [hl2, show j - i = (j - (i + 1)) + 1 by omega, Elems.slot]
    · intro q hq h1 h2
      have h3 : KP st3.map q = KP m q := d8 q hq h1 (fun j q' hj => h2 j q' (by omega))
      rw [h3, b3 q hq, if_neg (h2 i [] (Nat.le_refl _)), if_neg h1, a7 q hq]
      rintro ⟨x, e⟩
      exact h2 i x (Nat.le_refl _) (by rw [← e]; simp)
theorem Pairs.eff_exact : ∀ (t : Pairs) {p : List Key} {st : PState} {ks : List Str},
    Level st → At p st → PathWf st.keychain → st.keychain ≠ [] → t.wf → t.distinct = true → Only st.map → (∀ k ∈ t.keys, k ∉ ks) →
    KP st.map (p ++ st.keychain) = tabShell ks →
    (∀ k q, k ∉ ks → PathWf (p ++ st.keychain ++ .str k :: q) → KP st.map (p ++ st.keychain ++ .str k :: q) = none) →
    ∃ st', t.eff st = .ok st' ∧ st'.errors = t.report (p ++ st.keychain) st.lineCount st.errors ∧ st'.lastArrayType = st.lastArrayType ∧ Only st'.map ∧
      KP st'.map (p ++ st.keychain) = tabShell (ks ++ t.keys) ∧
      (∀ k q, k ∉ ks → PathWf (p ++ st.keychain ++ .str k :: q) → KP st'.map (p ++ st.keychain ++ .str k :: q) = t.slot st.heap.length k q) ∧
      ∀ q, PathWf q → q ≠ p ++ st.keychain → (∀ k q', k ∉ ks → q ≠ p ++ st.keychain ++ .str k :: q') → KP st'.map q = KP st.map q
  | .nil, p, st, ks, hlev, hc, hk, hne, hw, hs, ho, hks, hP, hf => by
    refine ⟨st, rfl, rfl, rfl, ho, by simpa [Pairs.keys] using hP, fun j q hj hq => ?_, fun _ _ _ _ => rfl⟩
    rw [hf j q hj hq]; rfl
  | .cons k ws v sep cn r, p, st, ks, hlev, hc, hk, hne, hw, hs, ho, hks, hP, hf => by
    rw [Pairs.wf] at hw
    simp only [Pairs.distinct, Bool.and_eq_true, Bool.not_eq_true'] at hs
    have hk1 : PathWf (st.keychain ++ [.str k]) := hk.push hw.1
    have hwP : PathWf (p ++ st.keychain) := hc.wf.append' hk
    have hkk : k ∉ ks := hks k (by simp [Pairs.keys])
    have hpk : p ++ (st.pushK k).keychain = p ++ st.keychain ++ [.str k] := (List.append_assoc ..).symm
    obtain ⟨st1, a1, a2, a3, a4, a5, a6, a7⟩ := VT.eff_exact v (p := p) (st := st.pushK k) (hlev.congr rfl rfl rfl) (hc.congr rfl rfl rfl rfl fun _ _ _ => rfl) hk1 (by simp [PState.pushK]) hw.2.2.1 hs.1.1 ho (by
      intro q hq
      rw [hpk] at hq ⊢
      rw [List.append_assoc] at hq ⊢
      exact hf k q hkk hq)
    rw [hpk] at a2 a5 a6 a7
    have f1 := VT.eff_frame a1
    obtain ⟨fp, hr⟩ := VT.rep_after a1
    have hlev1 : Level st1 := hlev.congr f1.lastTable f1.tables f1.index
    have hc1 : At p st1 := hc.congr f1.lastTable f1.tables f1.index f1.err fun r hr hn => a7 r (by
      obtain ⟨q, rfl⟩ := hr
      exact hc.wf.left) (fun ⟨q, e⟩ => prefix_not (kc := st.keychain) (q := [.str k] ++ q) hr hn (by rw [← e]; simp))
    obtain ⟨m, b1, b2, b3⟩ := keyvalAct_exact hc1 hk hw.1 f1.keychain hr a5
    have hn1 : ∀ q, (p ++ st.keychain) ≠ p ++ st.keychain ++ [.str k] ++ q := fun q e => by
      have := congrArg List.length e
      simp at this
    have hK1 : KP st1.map (p ++ st.keychain) = tabShell ks := by
      rw [a7 _ hwP (fun ⟨q, e⟩ => hn1 q e.symm)]; exact hP
    have hl2 : st1.heap.length = (st.pushK k).heap.length + v.size := VT.eff_length a1
    have hc2 : At p { st1 with map := m, keychain := st.keychain } := hc1.congr rfl rfl rfl rfl fun r hr hn => by
      have hrw : PathWf r := by
        obtain ⟨q, rfl⟩ := hr
        exact hc.wf.left
      have h1 : r ≠ p ++ st.keychain ++ [.str k] := by
        have := prefix_not (kc := st.keychain) (q := [.str k]) hr hn
        exact this
      have h2 : r ≠ p ++ st.keychain := by
        have := prefix_not (kc := st.keychain) (q := []) hr hn
        simpa using this
      show KP m r = _
      rw [b3 r hrw, if_neg h1, if_neg h2]
    obtain ⟨st3, d1, d2, d3, d4, d6, d7, d8⟩ := Pairs.eff_exact r (ks := ks ++ [k]) (by exact hlev1.congr rfl rfl rfl) hc2 hk hne hw.2.2.2.2.2 hs.2 (b2 a4)
      (by
        intro k' hk'
        have h1 := hks k' (by simp [Pairs.keys, hk'])
        have h2 := hs.1.2
        rw [List.mem_append, List.mem_singleton]
        rintro (h | rfl)
        · exact h1 h
        · simp_all) (by
        show KP m (p ++ st.keychain) = _
        rw [b3 _ hwP, if_neg (by have := hn1 []; simpa using this), if_pos rfl, hK1, upd_tabShell hkk]) (by
        intro j q hj hq
        show KP m (p ++ st.keychain ++ _) = none
        have hq : PathWf (p ++ st.keychain ++ .str j :: q) := hq
        have hjk : j ≠ k := fun e => hj (by simp [e])
        have h1 : p ++ st.keychain ++ .str j :: q ≠ p ++ st.keychain ++ [.str k] := by
          intro e
          simp [hjk] at e
        have h2 : p ++ st.keychain ++ .str j :: q ≠ p ++ st.keychain := by simp
        rw [b3 _ hq, if_neg h1, if_neg h2, a7 _ hq]
        · exact hf j q (fun h => hj (by simp [h])) hq
        rintro ⟨x, e⟩
        simp [Ne.symm hjk] at e)
    refine ⟨st3, ?_, ?_, ?_, d4, ?_, ?_, ?_⟩
    · rw [Pairs.eff, a1, Out.bind, b1, Out.bind, d1]
    · rw [d2, Pairs.report]
      dsimp only
      rw [VT.eff_line a1, a2]
      rfl
    · rw [d3]; exact a3
    · have d6 : KP st3.map (p ++ st.keychain) = _ := d6
      rw [d6]; simp [Pairs.keys]
    · intro j q hj hq
      rw [Pairs.slot]
      by_cases hji : j = k
      · subst hji
        rw [if_pos rfl]
        have h1 : KP st3.map (p ++ st.keychain ++ .str j :: q) = KP m _ := d8 _ hq (by simp) (by
          intro k' q' hk' e
          have e : p ++ st.keychain ++ .str j :: q = p ++ st.keychain ++ .str k' :: q' := e
          simp only [List.append_cancel_left_eq, List.cons.injEq, Key.str.injEq] at e
          exact hk' (by simp [e.1]))
        rw [h1, b3 _ hq]
        by_cases hqn : q = []
        · subst hqn
          rw [if_pos rfl, VT.eff_addr a1]
          cases v <;> rfl
        · rw [if_neg (by simpa using hqn), if_neg (by simp)]
          have := a6 q hqn (by simpa using hq)
          rw [List.append_assoc] at this
          exact this
      · rw [if_neg (Ne.symm hji)]
        have := d7 j q (by simp [hj, hji]) hq
        have hl : (st.pushK k).heap.length = st.heap.length := rfl
        dsimp only at this
        rw [this, hl2, hl]
    · intro q hq h1 h2
      have h3 : KP st3.map q = KP m q := d8 q hq h1 (fun k' q' hk' => h2 k' q' (fun h => hk' (by simp [h])))
      have h4 : KP st1.map q = KP st.map q := a7 q hq (by
        rintro ⟨x, e⟩
        exact h2 k x hkk (by rw [← e]; simp))
      rw [h3, b3 q hq, if_neg (h2 k [] hkk), if_neg h1, h4]
end

/-! ## Sound values -/

mutual
theorem VT.sound_distinct : ∀ (t : VT), t.sound = true → t.distinct = true
  | .leaf _, _ => rfl
  | .arr es _ _, h => by
    rw [VT.sound, Bool.and_eq_true] at h
    exact Elems.sound_distinct es h.1
  | .itab kvs _, h => Pairs.sound_distinct kvs h
theorem Elems.sound_distinct : ∀ (t : Elems), t.sound = true → t.distinct = true
  | .nil, _ => rfl
  | .cons v _ _ r, h => by
    rw [Elems.sound, Bool.and_eq_true] at h
    rw [Elems.distinct, VT.sound_distinct v h.1, Elems.sound_distinct r h.2]; rfl
theorem Pairs.sound_distinct : ∀ (t : Pairs), t.sound = true → t.distinct = true
  | .nil, _ => rfl
  | .cons k _ v _ _ r, h => by
    rw [Pairs.sound, Bool.and_eq_true, Bool.and_eq_true] at h
    rw [Pairs.distinct, VT.sound_distinct v h.1.1, h.1.2, Pairs.sound_distinct r h.2]; rfl
end

theorem kinds_one {ks : List ArrayType} (h : (ks.all fun k => ks.all fun k' => decide (k = k')) = true) : ∃ kd, ∀ k ∈ ks, k = kd := by
  cases ks with
  | nil => exact ⟨.none, by simp⟩
  | cons k ks =>
    refine ⟨k, fun k' hk' => ?_⟩
    rw [List.all_eq_true] at h
    have := h k' hk'
    rw [List.all_eq_true] at this
    simpa using this k (by simp)

mutual
theorem VT.report_sound : ∀ (t : VT) (P : List Key) (n : Nat) (es : List ParseError), t.sound = true → t.report P n es = es
  | .leaf s, P, n, es, h => by
    cases s with
    | dt d => exact if_pos h
    | _ => rfl
  | .arr vs _ _, P, n, es, h => by
    rw [VT.sound, Bool.and_eq_true] at h
    obtain ⟨kd, hkd⟩ := kinds_one h.2
    exact Elems.report_sound vs P 0 .none kd n es h.1 (.inl rfl) hkd
  | .itab kvs _, P, n, es, h => Pairs.report_sound kvs P n es h
theorem Elems.report_sound : ∀ (t : Elems) (P : List Key) (i : Nat) (p0 kd : ArrayType) (n : Nat) (es : List ParseError), t.sound = true → (p0 = .none ∨ p0 = kd) →
    (∀ k ∈ t.kinds, k = kd) → t.report P i p0 n es = es
  | .nil, P, i, p0, kd, n, es, _, _, _ => rfl
  | .cons v _ _ r, P, i, p0, kd, n, es, h, h0, hk => by
    rw [Elems.sound, Bool.and_eq_true] at h
    have hv : v.kind = kd := hk _ (by simp [Elems.kinds])
    rw [Elems.report, if_pos (by rw [hv]; exact h0), VT.report_sound v _ _ _ h.1, Elems.report_sound r _ _ _ kd _ _ h.2 (.inr hv) (fun k h' => hk k (by simp [Elems.kinds, h']))]
theorem Pairs.report_sound : ∀ (t : Pairs) (P : List Key) (n : Nat) (es : List ParseError), t.sound = true → t.report P n es = es
  | .nil, P, n, es, _ => rfl
  | .cons k _ v _ _ r, P, n, es, h => by
    rw [Pairs.sound, Bool.and_eq_true, Bool.and_eq_true] at h
    rw [Pairs.report, VT.report_sound v _ _ _ h.1.1, Pairs.report_sound r _ _ _ h.2]
end

end Tomllib
