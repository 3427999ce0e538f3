import Verif.Lemmas.Ctx
/-!
# Which cell a key has: documents without arrays of tables
-/

namespace Tomllib

theorem lookup_append {V : Type} (k : Str) (a b : List (Str × V)) : lookup k (a ++ b) = (lookup k a).or (lookup k b) := by
  induction a with
  | nil => simp [lookup]
  | cons x a ih =>
    obtain ⟨k', v⟩ := x
    simp only [List.cons_append, lookup]
    split
    · rfl
    · exact ih

theorem lookup_map {V W : Type} (f : V → W) (k : Str) (l : List (Str × V)) : lookup k (l.map fun e => (e.1, f e.2)) = (lookup k l).map f := by
  induction l with
  | nil => rfl
  | cons x l ih =>
    obtain ⟨k', v⟩ := x
    simp only [List.map_cons, lookup]
    split
    · rfl
    · exact ih

theorem lookup_mem {V : Type} {k : Str} {v : V} {l : List (Str × V)} (h : lookup k l = some v) : (k, v) ∈ l := by
  induction l with
  | nil => simp [lookup] at h
  | cons x l ih =>
    obtain ⟨k', w⟩ := x
    simp only [lookup] at h
    split at h
    next e => subst e; simp at h; subst h; simp
    · simp [ih h]

theorem lookup_none {V : Type} {k : Str} {l : List (Str × V)} : lookup k l = none ↔ ∀ v, (k, v) ∉ l := by
  induction l with
  | nil => simp [lookup]
  | cons x l ih =>
    obtain ⟨k', w⟩ := x
    simp only [lookup]
    split
    next e => subst e; simp; exact ⟨w, fun h => absurd rfl h⟩
    next e =>
      rw [ih]
      simp [Ne.symm e]

/-! ## Entries with addresses -/

mutual
/-- The entries below a key, with the addresses of their cells if the first cell of the value is at `n`. -/
def VT.aents (K : Str) (n : Nat) : VT → List (Str × Addr × VT)
  | .leaf _ => []
  | .arr es _ _ => es.aents K 0 n
  | .itab kvs _ => kvs.aents K n
def Elems.aents (K : Str) (i n : Nat) : Elems → List (Str × Addr × VT)
  | .nil => []
  | .cons v _ _ r => v.aents (indexed K i) n ++ (indexed K i, v.addr n, v) :: r.aents K (i + 1) (n + v.size)
def Pairs.aents (K : Str) (n : Nat) : Pairs → List (Str × Addr × VT)
  | .nil => []
  | .cons k _ v _ _ r => v.aents (dotted K k) n ++ (dotted K k, v.addr n, v) :: r.aents K (n + v.size)
end

mutual
theorem VT.aents_entries : ∀ (t : VT) (K : Str) (n : Nat), (t.aents K n).map (fun e => (e.1, e.2.2)) = t.entries K
  | .leaf _, K, n => rfl
  | .arr es _ _, K, n => by rw [VT.aents, VT.entries, Elems.aents_entries es]
  | .itab kvs _, K, n => by rw [VT.aents, VT.entries, Pairs.aents_entries kvs]
theorem Elems.aents_entries : ∀ (t : Elems) (K : Str) (i n : Nat), (t.aents K i n).map (fun e => (e.1, e.2.2)) = t.entries K i
  | .nil, K, i, n => rfl
  | .cons v _ _ r, K, i, n => by
    rw [Elems.aents, Elems.entries, List.map_append, List.map_cons, VT.aents_entries v, Elems.aents_entries r]
theorem Pairs.aents_entries : ∀ (t : Pairs) (K : Str) (n : Nat), (t.aents K n).map (fun e => (e.1, e.2.2)) = t.entries K
  | .nil, K, n => rfl
  | .cons k _ v _ _ r, K, n => by
    rw [Pairs.aents, Pairs.entries, List.map_append, List.map_cons, VT.aents_entries v, Pairs.aents_entries r]
end

/-- The trees of the entries are at their addresses. -/
def EntsRep (h : Heap) (l : List (Str × Addr × VT)) : Prop := ∀ e ∈ l, ∃ fp, e.2.2.Rep h e.2.1 fp

theorem EntsRep.append {h : Heap} {a b : List (Str × Addr × VT)} (ha : EntsRep h a) (hb : EntsRep h b) : EntsRep h (a ++ b) := fun e he => by
  rw [List.mem_append] at he
  exact he.elim (ha e) (hb e)

mutual
theorem VT.aents_rep : ∀ (t : VT) (K : Str) (h l : Heap), EntsRep (h ++ t.cells h.length ++ l) (t.aents K h.length)
  | .leaf _, K, h, l => by simp [VT.aents, EntsRep]
  | .arr es c1 c2, K, h, l => by
    have := Elems.aents_rep es K 0 h (.arr (es.avs h.length) c1 c2 :: l)
    simpa [VT.aents, VT.cells] using this
  | .itab kvs ws, K, h, l => by
    have := Pairs.aents_rep kvs K h (.itab (kvs.tkvs h.length) ws :: l)
    simpa [VT.aents, VT.cells] using this
theorem Elems.aents_rep : ∀ (t : Elems) (K : Str) (i : Nat) (h l : Heap), EntsRep (h ++ t.cells h.length ++ l) (t.aents K i h.length)
  | .nil, K, i, h, l => by simp [Elems.aents, EntsRep]
  | .cons v sep cn r, K, i, h, l => by
    rw [Elems.aents, Elems.cells]
    have h1 := VT.aents_rep v (indexed K i) h (r.cells (h.length + v.size) ++ l)
    have h2 := Elems.aents_rep r K (i + 1) (h ++ v.cells h.length) l
    obtain ⟨fp, h3, _⟩ := v.rep_cells h (r.cells (h.length + v.size) ++ l)
    simp only [List.length_append, VT.cells_length, List.append_assoc] at h1 h2 h3 ⊢
    refine h1.append ?_
    intro e he
    rw [List.mem_cons] at he
    rcases he with rfl | he
    · exact ⟨_, h3⟩
    · exact h2 e he
theorem Pairs.aents_rep : ∀ (t : Pairs) (K : Str) (h l : Heap), EntsRep (h ++ t.cells h.length ++ l) (t.aents K h.length)
  | .nil, K, h, l => by simp [Pairs.aents, EntsRep]
  | .cons k ws v sep cn r, K, h, l => by
    rw [Pairs.aents, Pairs.cells]
    have h1 := VT.aents_rep v (dotted K k) h (r.cells (h.length + v.size) ++ l)
    have h2 := Pairs.aents_rep r K (h ++ v.cells h.length) l
    obtain ⟨fp, h3, _⟩ := v.rep_cells h (r.cells (h.length + v.size) ++ l)
    simp only [List.length_append, VT.cells_length, List.append_assoc] at h1 h2 h3 ⊢
    refine h1.append ?_
    intro e he
    rw [List.mem_cons] at he
    rcases he with rfl | he
    · exact ⟨_, h3⟩
    · exact h2 e he
end

/-! ## Entering a value -/

/-- The key table with a value entered, before the parent is told. -/
def putVal (m : KMap) (h : Heap) (K : Str) (a : Addr) : KMap :=
  match m.get? K with
  | some hv => m.insert K { hv with value := some a }
  | none => match h[a]? with
    | some (.itab _ _) => m.insert K ⟨some a, .keys []⟩
    | _ => m.insert K ⟨some a, .count 0⟩

theorem valOf_putVal (m : KMap) (h : Heap) (K : Str) (a : Addr) (x : Str) : valOf (putVal m h K a) x = if K = x then some a else valOf m x := by
  unfold putVal
  split
  · rw [valOf_insert]
  · split <;> rw [valOf_insert]

theorem get_putVal_other {m : KMap} {h : Heap} {K : Str} {a : Addr} {x : Str} (hx : K ≠ x) : (putVal m h K a).get? x = m.get? x := by
  unfold putVal
  split
  · rw [SMap.get?_insert, if_neg hx]
  · split <;> rw [SMap.get?_insert, if_neg hx]

theorem valOf_updateParent (m : KMap) (P : Str) (last : Key) (x : Str) : valOf (updateParent m P last) x = valOf m x := by
  unfold updateParent
  split
  next hv hg =>
    have hv' : valOf m P = hv.value := by simp [valOf, hg]
    split
    · rw [valOf_insert]; split
      next e => rw [← e, hv']
      · rfl
    · rw [valOf_insert]; split
      next e => rw [← e, hv']
      · rfl
    · rfl
  next hg =>
    have hv' : valOf m P = none := by simp [valOf, hg]
    split
    · rw [valOf_insert]; split
      next e => rw [← e, hv']
      · rfl
    · rw [valOf_insert]; split
      next e => rw [← e, hv']
      · rfl

theorem get_updateParent_other {m : KMap} {P : Str} {last : Key} {x : Str} (hx : P ≠ x) : (updateParent m P last).get? x = m.get? x := by
  unfold updateParent
  split
  · split
    · rw [SMap.get?_insert, if_neg hx]
    · rw [SMap.get?_insert, if_neg hx]
    · rfl
  · split <;> rw [SMap.get?_insert, if_neg hx]

/-- The parent entry of a path. -/
def parP (p : List Key) : Str := if p = [] then root else keyOf [] p

theorem insertKeyval_ctx {T : List Str} {st st' : PState} {a : Addr} (h : Ctx T st) (hk : PathWf st.keychain) (hne : st.keychain ≠ [])
    (hs : insertKeyval st a = .ok st') :
    (valOf st.map (keyOf [] (names T ++ st.keychain)) = none ∧
      st' = { st with
        map := updateParent (putVal st.map st.heap (keyOf [] (names T ++ st.keychain)) a) (parP (names T ++ st.keychain.dropLast)) (st.keychain.getLast hne) }) ∨
    (valOf st.map (keyOf [] (names T ++ st.keychain)) ≠ none ∧ ∃ v, toVal st.heap a = .ok v ∧
      st' = { st with errors := st.errors ++ [.duplicateKey (keyOf [] (names T ++ st.keychain)) st.lineCount 0 v] }) := by
  simp only [insertKeyval, h.insertKeys hk hne, Out.bind_eq, Out.bind] at hs
  split at hs
  next b c hg =>
    right
    refine ⟨by simp [valOf, hg], ?_⟩
    cases hv : toVal st.heap a with
    | ok v => rw [hv] at hs; simp at hs; exact ⟨v, rfl, hs.symm⟩
    | panic x => rw [hv] at hs; simp at hs
    | fuel => rw [hv] at hs; simp at hs
  next r hno =>
    left
    have hnone : valOf st.map (keyOf [] (names T ++ st.keychain)) = none := by
      cases hg : st.map.get? (keyOf [] (names T ++ st.keychain)) with
      | none => simp [valOf, hg]
      | some hv =>
        obtain ⟨v, c⟩ := hv
        cases v with
        | none => simp [valOf, hg]
        | some b => exact absurd hg (hno b c)
    refine ⟨hnone, ?_⟩
    rw [List.getLast?_eq_some_getLast hne] at hs
    simp at hs
    subst hs
    unfold putVal parP
    simp only [List.append_eq_nil_iff]
    rfl

/-- What entering does to the cells of keys, to other entries and to errors. -/
theorem insertKeyval_val {T : List Str} {st st' : PState} {a : Addr} (h : Ctx T st) (hk : PathWf st.keychain) (hne : st.keychain ≠ [])
    (hs : insertKeyval st a = .ok st') :
    (∀ x, valOf st'.map x = (valOf st.map x).or (if keyOf [] (names T ++ st.keychain) = x then some a else none)) ∧
    (∀ x, x ≠ keyOf [] (names T ++ st.keychain) → x ≠ parP (names T ++ st.keychain.dropLast) → st'.map.get? x = st.map.get? x) := by
  rcases insertKeyval_ctx h hk hne hs with ⟨h1, rfl⟩ | ⟨h1, v, _, rfl⟩
  · refine ⟨fun x => ?_, fun x hx hx' => ?_⟩
    · rw [valOf_updateParent, valOf_putVal]
      by_cases e : keyOf [] (names T ++ st.keychain) = x
      · rw [if_pos e, if_pos e, ← e, h1]; rfl
      · rw [if_neg e, if_neg e]; simp
    · rw [get_updateParent_other (Ne.symm hx'), get_putVal_other (Ne.symm hx)]
  · refine ⟨fun x => ?_, fun x _ _ => rfl⟩
    by_cases e : keyOf [] (names T ++ st.keychain) = x
    · rw [← e] 
      obtain ⟨b, hb⟩ := Option.ne_none_iff_exists'.mp h1
      simp only [hb]; rfl
    · rw [if_neg e]; simp

theorem checkMixed_map {t : ArrayType} {st st' : PState} (h : checkMixed t st = .ok st') : st'.map = st.map := by
  unfold checkMixed at h
  split at h
  · simp at h; subst h; rfl
  · split at h
    · simp at h; subst h; rfl
    · split at h
      · simp at h
      · simp at h
      · dsimp only at h
        rcases Out.ite_ok h with rfl | rfl <;> rfl

theorem Scalar.eff_map {s : Scalar} {st st' : PState} (h : s.eff st = .ok st') : st'.map = st.map := by
  unfold Scalar.eff at h
  split at h
  · split at h
    · simp at h; subst h; rfl
    · rw [Out.bind_ok] at h
      obtain ⟨x, _, h⟩ := h
      simp at h; subst h; rfl
  all_goals (simp at h; subst h; rfl)

/-- Parts of a path after its first name. -/
def TailWf (q : List Key) : Prop := ∀ s, Key.str s ∈ q → KeyWf s

theorem TailWf.append {p q : List Key} (h : TailWf p) (h' : TailWf q) : TailWf (p ++ q) := fun s hs =>
  (List.mem_append.mp hs).elim (h s) (h' s)

/-- Nothing is entered outside of the path `p`. -/
def Within (p : List Key) (m m' : KMap) : Prop := ∀ x, (∀ q, TailWf q → x ≠ keyOf [] (p ++ q)) → m'.get? x = m.get? x

theorem Within.refl (p : List Key) (m : KMap) : Within p m m := fun _ _ => rfl
theorem Within.trans {p : List Key} {a b c : KMap} (h : Within p a b) (h' : Within p b c) : Within p a c :=
  fun x hx => (h' x hx).trans (h x hx)
theorem Within.up {p q : List Key} {a b : KMap} (h : Within (p ++ q) a b) (hq : TailWf q) : Within p a b :=
  fun x hx => h x (fun r hr => by rw [List.append_assoc]; exact hx (q ++ r) (hq.append hr))

/-- Entering an element, and what is remembered about it. -/
theorem arrayValueAct_val {T : List Str} {st st' : PState} {a : Addr} {kc : List Key} {i : Nat} (h : Ctx T st) (hk : PathWf kc) (hne : kc ≠ [])
    (hkc : st.keychain = kc ++ [.idx i]) (hs : arrayValueAct a st = .ok st') :
    st'.keychain = kc ++ [.idx (i + 1)] ∧
    (∀ x, valOf st'.map x = (valOf st.map x).or (if keyOf [] (names T ++ kc ++ [.idx i]) = x then some a else none)) ∧
    Within (names T ++ kc) st.map st'.map := by
  simp only [arrayValueAct, Out.bind_eq, Out.bind_ok] at hs
  obtain ⟨v, _, t, _, st1, h1, st2, h2, hs⟩ := hs
  have f1 := checkMixed_frame h1
  have m1 := checkMixed_map h1
  have c1 : Ctx T { st1 with lastArrayType := st1.lastArrayType.dropLast ++ [t] } := (h.frame f1).congr rfl rfl rfl rfl
  have k1 : st1.keychain = kc ++ [.idx i] := f1.keychain.trans hkc
  have hpw : PathWf st1.keychain := by rw [k1]; exact hk.append hne (by simp)
  have hne1 : st1.keychain ≠ [] := by rw [k1]; simp
  obtain ⟨v1, v2⟩ := insertKeyval_val c1 hpw hne1 h2
  have f2 := insertKeyval_frame h2
  have k2 : st2.keychain = kc ++ [.idx i] := f2.keychain.trans k1
  rw [k2] at hs
  simp at hs
  subst hs
  dsimp only at v1 v2 ⊢
  rw [m1, k1] at v1 v2
  refine ⟨by simp [Key.inc], fun x => by rw [v1 x, List.append_assoc], fun x hx => v2 x ?_ ?_⟩
  · have := hx [.idx i] (by simp [TailWf])
    simpa using this
  · have := hx [] (by simp [TailWf])
    have hne' : names T ++ kc ≠ [] := by simp [hne]
    simp only [List.dropLast_concat, parP, if_neg hne']
    simpa using this

/-- Entering a pair of an inline table, or a line. -/
theorem keyvalAct_val {T : List Str} {st st' : PState} {a : Addr} {k : Str} {kc : List Key} (h : Ctx T st) (hw : KeyWf k)
    (hk : PathWf kc) (hkc : st.keychain = kc ++ [.str k]) (hs : keyvalAct k a st = .ok st') :
    st'.keychain = kc ∧
    (∀ x, valOf st'.map x = (valOf st.map x).or (if keyOf [] (names T ++ kc ++ [.str k]) = x then some a else none)) ∧
    (∀ x, x ≠ keyOf [] (names T ++ kc ++ [.str k]) → x ≠ parP (names T ++ kc) → st'.map.get? x = st.map.get? x) := by
  simp only [keyvalAct, Out.bind_eq, Out.bind_ok] at hs
  obtain ⟨st1, h1, hs⟩ := hs
  have he : ¬ st.arrayError = true := by rw [h.2.1]; simp
  rw [if_neg he] at h1
  have hpw : PathWf st.keychain := by
    rw [hkc]
    by_cases hn : kc = []
    · subst hn; exact ⟨hw, by simp⟩
    · exact hk.append hn (by simp; exact hw)
  have hne : st.keychain ≠ [] := by rw [hkc]; simp
  obtain ⟨v1, v2⟩ := insertKeyval_val h hpw hne h1
  have f1 := insertKeyval_frame h1
  simp at hs
  subst hs
  dsimp only at v1 v2 ⊢
  rw [hkc] at v1 v2
  refine ⟨by rw [f1.keychain, hkc]; simp, fun x => by rw [v1 x, List.append_assoc], fun x hx hx' => v2 x (by simpa using hx) (by simpa using hx')⟩

theorem Option.or_assoc' {α : Type} (a b c : Option α) : (a.or b).or c = a.or (b.or c) := by cases a <;> rfl

mutual
theorem VT.eff_val : ∀ (t : VT) {T : List Str} {st st' : PState}, Ctx T st → PathWf st.keychain → st.keychain ≠ [] → t.wf → t.eff st = .ok st' →
    (∀ x, valOf st'.map x = (valOf st.map x).or ((lookup x (t.aents (keyOf [] (names T ++ st.keychain)) st.heap.length)).map (·.1))) ∧
    Within (names T ++ st.keychain) st.map st'.map
  | .leaf s, T, st, st', hc, hk, hne, hw, h => by
    rw [VT.eff, Out.bind_ok] at h
    obtain ⟨st1, h1, h⟩ := h
    simp at h; subst h
    have hm : (st1.cell s.cell).map = st.map := (show _ = st1.map from rfl).trans (Scalar.eff_map h1)
    rw [hm]
    exact ⟨fun x => by simp [VT.aents, lookup], .refl _ _⟩
  | .arr es c1 c2, T, st, st', hc, hk, hne, hw, h => by
    rw [VT.eff, Out.bind_ok] at h
    obtain ⟨st1, h1, h⟩ := h
    simp at h; subst h
    rw [VT.wf] at hw
    have := Elems.eff_val es (T := T) (st := st.openArr) (kc := st.keychain) (i := 0) (hc.congr rfl rfl rfl rfl) hk hne rfl hw.2.1 h1
    exact this
  | .itab kvs ws, T, st, st', hc, hk, hne, hw, h => by
    rw [VT.eff, Out.bind_ok] at h
    obtain ⟨st1, h1, h⟩ := h
    simp at h; subst h
    rw [VT.wf] at hw
    have := Pairs.eff_val kvs hc hk hne hw.2 h1
    exact this
theorem Elems.eff_val : ∀ (t : Elems) {T : List Str} {st st' : PState} {kc : List Key} {i : Nat}, Ctx T st → PathWf kc → kc ≠ [] →
    st.keychain = kc ++ [.idx i] → t.wf → t.eff st = .ok st' →
    (∀ x, valOf st'.map x = (valOf st.map x).or ((lookup x (t.aents (keyOf [] (names T ++ kc)) i st.heap.length)).map (·.1))) ∧
    Within (names T ++ kc) st.map st'.map
  | .nil, T, st, st', kc, i, hc, hk, hne, hkc, hw, h => by
    simp [Elems.eff] at h; subst h
    exact ⟨fun x => by simp [Elems.aents, lookup], .refl _ _⟩
  | .cons v sep cn r, T, st, st', kc, i, hc, hk, hne, hkc, hw, h => by
    rw [Elems.eff, Out.bind_ok] at h
    obtain ⟨st1, h1, h⟩ := h
    rw [Out.bind_ok] at h
    obtain ⟨st2, h2, h⟩ := h
    rw [Elems.wf] at hw
    have hpw : PathWf st.keychain := by rw [hkc]; exact hk.append hne (by simp)
    have f1 := VT.eff_frame h1
    obtain ⟨a1, a2⟩ := VT.eff_val v hc hpw (by rw [hkc]; simp) hw.1 h1
    have hc1 := hc.frame f1
    obtain ⟨b0, b1, b2⟩ := arrayValueAct_val hc1 hk hne (f1.keychain.trans hkc) h2
    have hc2 := hc1.frame' (arrayValueAct_frame h2)
    obtain ⟨d1, d2⟩ := Elems.eff_val r hc2 hk hne b0 hw.2.2.2 h
    have hl : st2.heap.length = st.heap.length + v.size := by rw [arrayValueAct_heap h2, VT.eff_length h1]
    have hK : keyOf [] (names T ++ kc ++ [.idx i]) = indexed (keyOf [] (names T ++ kc)) i := by
      rw [keyOf_append]; rfl
    rw [hkc, ← List.append_assoc] at a1 a2
    refine ⟨fun x => ?_, ((a2.up (by simp [TailWf])).trans b2).trans d2⟩
    rw [d1 x, b1 x, a1 x, hl, Elems.aents, lookup_append, lookup, hK, VT.eff_addr h1, Option.or_assoc', Option.or_assoc']
    congr 1
    cases lookup x (v.aents (indexed (keyOf [] (names T ++ kc)) i) st.heap.length) with
    | some y => rfl
    | none =>
      simp only [Option.map_none, Option.none_or]
      split <;> simp
theorem Pairs.eff_val : ∀ (t : Pairs) {T : List Str} {st st' : PState}, Ctx T st → PathWf st.keychain → st.keychain ≠ [] → t.wf → t.eff st = .ok st' →
    (∀ x, valOf st'.map x = (valOf st.map x).or ((lookup x (t.aents (keyOf [] (names T ++ st.keychain)) st.heap.length)).map (·.1))) ∧
    Within (names T ++ st.keychain) st.map st'.map
  | .nil, T, st, st', hc, hk, hne, hw, h => by
    simp [Pairs.eff] at h; subst h
    exact ⟨fun x => by simp [Pairs.aents, lookup], .refl _ _⟩
  | .cons k ws v sep cn r, T, st, st', hc, hk, hne, hw, h => by
    rw [Pairs.eff, Out.bind_ok] at h
    obtain ⟨st1, h1, h⟩ := h
    rw [Out.bind_ok] at h
    obtain ⟨st2, h2, h⟩ := h
    rw [Pairs.wf] at hw
    have hpw : PathWf (st.pushK k).keychain := hk.append hne (by simp; exact hw.1)
    have f1 := VT.eff_frame h1
    have hcp : Ctx T (st.pushK k) := hc.congr rfl rfl rfl rfl
    obtain ⟨a1, a2⟩ := VT.eff_val v hcp hpw (by simp [PState.pushK]) hw.2.2.1 h1
    have hc1 := hcp.frame f1
    obtain ⟨b0, b1, b2⟩ := keyvalAct_val hc1 hw.1 hk f1.keychain h2
    have hc2 : Ctx T st2 := by
      have f2 := (keyvalAct_frame h2).2
      exact hc1.congr f2.lastTable f2.tables f2.index f2.err
    obtain ⟨d1, d2⟩ := Pairs.eff_val r hc2 (by rw [b0]; exact hk) (by rw [b0]; exact hne) hw.2.2.2.2.2 h
    have hl : st2.heap.length = st.heap.length + v.size := by rw [keyvalAct_heap h2, VT.eff_length h1]; rfl
    have hK : keyOf [] (names T ++ st.keychain ++ [.str k]) = dotted (keyOf [] (names T ++ st.keychain)) k := by
      rw [keyOf_append]; rfl
    have hpk : (st.pushK k).keychain = st.keychain ++ [.str k] := rfl
    rw [b0] at d1 d2
    rw [hpk, ← List.append_assoc] at a1 a2
    have w2 : Within (names T ++ st.keychain) st1.map st2.map := fun x hx => b2 x
      (hx [.str k] (by simp [TailWf]; exact hw.1)) (by
        have hne' : names T ++ st.keychain ≠ [] := by simp [hne]
        rw [parP, if_neg hne']
        simpa using hx [] (by simp [TailWf]))
    refine ⟨fun x => ?_, ((a2.up (by simp [TailWf]; exact hw.1)).trans w2).trans d2⟩
    have hh : (st.pushK k).heap = st.heap := rfl
    have hmm : (st.pushK k).map = st.map := rfl
    rw [d1 x, b1 x, a1 x, hl, Pairs.aents, lookup_append, lookup, hK, VT.eff_addr h1, Option.or_assoc', Option.or_assoc', hh, hmm]
    congr 1
    cases lookup x (v.aents (dotted (keyOf [] (names T ++ st.keychain)) k) st.heap.length) with
    | some y => rfl
    | none =>
      simp only [Option.map_none, Option.none_or]
      split <;> simp
end

end Tomllib
