import Verif.Lemmas.Path
import Verif.Spec.Entries
import Verif.Lemmas.Parse
/-!
# Full keys in documents without arrays of tables
-/

namespace Tomllib

/-- The path of a list of names. -/
def names (ks : List Str) : List Key := ks.map .str

/-- The key of a list of names. -/
abbrev nkey (ks : List Str) : Str := keyOf [] (names ks)

/-- Names that can occur. -/
def NamesWf (ks : List Str) : Prop := ∀ k ∈ ks, KeyWf k

theorem NamesWf.path {ks : List Str} (h : NamesWf ks) : PathWf (names ks) := by
  cases ks with
  | nil => trivial
  | cons k ks =>
    refine ⟨h k (by simp), fun s hs => h s ?_⟩
    simp [names] at hs
    simp [hs]

theorem NamesWf.append {a b : List Str} (h : NamesWf a) (h' : NamesWf b) : NamesWf (a ++ b) := fun k hk => by
  rw [List.mem_append] at hk
  exact hk.elim (h k) (h' k)
theorem NamesWf.left {a b : List Str} (h : NamesWf (a ++ b)) : NamesWf a := fun k hk => h k (by simp [hk])
theorem NamesWf.right {a b : List Str} (h : NamesWf (a ++ b)) : NamesWf b := fun k hk => h k (by simp [hk])

theorem PathWf.append {p q : List Key} (h : PathWf p) (hne : p ≠ []) (hq : ∀ s, .str s ∈ q → KeyWf s) : PathWf (p ++ q) := by
  cases p with
  | nil => exact absurd rfl hne
  | cons k p =>
    cases k with
    | idx => exact h.elim
    | str k =>
      refine ⟨h.1, fun s hs => ?_⟩
      exact (List.mem_append.mp hs).elim (h.2 s) (hq s)

theorem PathWf.left {p q : List Key} (h : PathWf (p ++ q)) : PathWf p := by
  cases p with
  | nil => trivial
  | cons k p =>
    cases k with
    | idx => exact h.elim
    | str k => exact ⟨h.1, fun s hs => h.2 s (by simp [hs])⟩

theorem PathWf.names {p : List Key} (h : PathWf p) : ∀ s, Key.str s ∈ p → KeyWf s := by
  cases p with
  | nil => simp
  | cons k p =>
    cases k with
    | idx => exact h.elim
    | str k =>
      intro s hs
      simp at hs
      rcases hs with rfl | hs
      · exact h.1
      · exact h.2 s hs

theorem nkey_inj {a b : List Str} (ha : NamesWf a) (hb : NamesWf b) (h : nkey a = nkey b) : a = b := by
  have := keyOf_inj ha.path hb.path h
  simpa [names, List.map_inj_right] using this

theorem keyOf_ne_nil {p : List Key} (h : PathWf p) (hne : p ≠ []) : keyOf [] p ≠ [] := fun e => hne (keyOf_inj h (q := []) trivial e)

theorem keyOf_ne_root {p : List Key} (h : PathWf p) : keyOf [] p ≠ root := by
  cases p with
  | nil => simp [keyOf, root]
  | cons k p =>
    cases k with
    | idx => exact h.elim
    | str k =>
      rw [keyOf_nil_cons h.1.ne]
      intro e
      rcases h.1 with ⟨hn, hb⟩ | hq
      · cases k with
        | nil => exact hn rfl
        | cons c k =>
          have := hb c (by simp)
          simp [root] at e
          rw [e.1] at this
          revert this; decide
      · obtain ⟨b, rfl, _⟩ := quotedKey_unq hq []
        simp [root] at e

theorem nkey_snoc (ks : List Str) (k : Str) : nkey (ks ++ [k]) = dotted (nkey ks) k := by
  simp [nkey, names, keyOf, Key.add]

/-- The entry in which the children of a list of names are kept. -/
def par (ks : List Str) : Str := if ks = [] then root else nkey ks

theorem par_snoc (ks : List Str) (k : Str) : par (ks ++ [k]) = nkey (ks ++ [k]) := by simp [par]

theorem par_inj {a b : List Str} (ha : NamesWf a) (hb : NamesWf b) (h : par a = par b) : a = b := by
  unfold par at h
  split at h <;> split at h
  · simp_all
  · exact absurd h.symm (keyOf_ne_root hb.path)
  · exact absurd h (keyOf_ne_root ha.path)
  · exact nkey_inj ha hb h

theorem joinDot_cons (k : Str) {ks : List Str} (h : ks ≠ []) : joinDot (k :: ks) = k ++ lit% "." ++ joinDot ks := by
  cases ks with
  | nil => exact absurd rfl h
  | cons => rfl

theorem restStr_names : ∀ (ks : List Str), ks ≠ [] → restStr (names ks) = lit% "." ++ joinDot ks
  | [], h => absurd rfl h
  | [k], _ => by simp [names, restStr, joinDot]
  | k :: k' :: ks, _ => by
    have := restStr_names (k' :: ks) (by simp)
    rw [joinDot_cons k (by simp)]
    simp only [names, List.map_cons, restStr] at this ⊢
    rw [this]
    simp

theorem nkey_joinDot {ks : List Str} (h : NamesWf ks) : nkey ks = joinDot ks := by
  cases ks with
  | nil => rfl
  | cons k ks =>
    show keyOf [] (.str k :: names ks) = _
    rw [keyOf_nil_cons (h k (by simp)).ne]
    cases ks with
    | nil => simp [names, restStr, joinDot]
    | cons k' ks => rw [restStr_names _ (by simp), joinDot_cons k (by simp)]; simp

/-! ## Key chains -/

theorem Key.add_eq (b : Str) (k : Key) : Key.add b k = (match k with
      | .str s => (if b ≠ [] then b ++ lit% "." else b) ++ s
      | .idx i => b ++ idxStr i) := by
  cases k with
  | str s =>
    simp only [Key.add, dotted]
    split
    · rfl
    next h => simp at h; simp [h]
  | idx i => simp [Key.add, indexed, decimal_eq, idxStr]

theorem keychainLoop_eq : ∀ (kc : List Key) (key parent : Str), keychainLoop kc key parent =
    (keyOf key kc, if 2 ≤ kc.length then keyOf key kc.dropLast else parent)
  | [], key, parent => by simp [keychainLoop, keyOf]
  | k :: kc, key, parent => by
    have hstep : keychainLoop (k :: kc) key parent = keychainLoop kc (Key.add key k) (match kc with
        | [_] => Key.add key k
        | _ => parent) := by
      rw [Key.add_eq]
      rfl
    rw [hstep, keychainLoop_eq kc]
    cases kc with
    | nil => simp [keyOf]
    | cons k' kc =>
      cases kc with
      | nil => simp [keyOf]
      | cons k'' kc => simp [keyOf]

theorem getKeychainKey_eq (kc : List Key) : getKeychainKey kc = (keyOf [] kc, keyOf [] kc.dropLast) := by
  rw [getKeychainKey, keychainLoop_eq]
  cases kc with
  | nil => simp [keyOf]
  | cons k kc =>
    cases kc with
    | nil => simp [keyOf]
    | cons => simp

/-! ## Standard tables -/

theorem nkey_append_str (fk : Str) (k : Str) (h : fk ≠ []) : dotted fk k = fk ++ lit% "." ++ k := by
  simp [dotted, h]

/-- No prefix of the path, nor the path itself, has a value. -/
def Free (m : KMap) (h : Heap) (ks : List Str) : Prop := ∀ a b, a ≠ [] → a ++ b = ks → keyHasValue m h (nkey a) = false

theorem Free.left {m : KMap} {h : Heap} {a b : List Str} (hf : Free m h (a ++ b)) : Free m h a := fun x y hx e =>
  hf x (y ++ b) hx (by rw [← List.append_assoc, e])

/-- What is left of the key text after `pre` when `ks` follows. -/
def dotAfter (pre : List Str) : Str := if pre = [] then [] else nkey pre ++ lit% "."

theorem dotAfter_add {pre : List Str} (hp : NamesWf pre) (k : Str) : dotAfter pre ++ k = nkey (pre ++ [k]) := by
  rw [nkey_snoc, dotted, dotAfter]
  by_cases h : pre = []
  · subst h; simp [nkey, names, keyOf]
  · have : nkey pre ≠ [] := keyOf_ne_nil hp.path (by simpa [names] using h)
    simp [h, this]

theorem stdKeyInner_eq (m : KMap) (h : Heap) : ∀ (ks pre : List Str) (valid : Bool) (pk : Str), NamesWf (pre ++ ks) → ks ≠ [] →
    ∃ v, stdKeyInner m h ks (dotAfter pre) valid pk = (dotAfter (pre ++ ks.dropLast), v, if ks.length = 1 then pk else nkey (pre ++ ks.dropLast)) ∧
      (v = true ↔ valid = true ∧ ∀ a b, a ≠ [] → b ≠ [] → a ++ b = ks → keyHasValue m h (nkey (pre ++ a)) = false)
  | [], _, _, _, _, hne => absurd rfl hne
  | [k], pre, valid, pk, hw, _ => by
    refine ⟨valid, by simp [stdKeyInner], ?_⟩
    constructor
    · refine fun hv => ⟨hv, fun a b ha hb e => ?_⟩
      cases a with
      | nil => exact absurd rfl ha
      | cons x a =>
        simp at e
        exact absurd e.2.2 hb
    · exact fun hv => hv.1
  | k :: k' :: ks, pre, valid, pk, hw, _ => by
    have hkr : k ≠ root := (hw k (by simp)).ne_root
    have hpre : NamesWf pre := hw.left
    have hw' : NamesWf ((pre ++ [k]) ++ (k' :: ks)) := by simpa using hw
    rw [stdKeyInner, if_neg hkr, dotAfter_add hpre]
    dsimp only
    have hdot : nkey (pre ++ [k]) ++ lit% "." = dotAfter (pre ++ [k]) := by simp [dotAfter]
    rw [hdot]
    obtain ⟨v, e1, e2⟩ := stdKeyInner_eq m h (k' :: ks) (pre ++ [k]) (valid && !keyHasValue m h (nkey (pre ++ [k])))
      (if ks = [] then nkey (pre ++ [k]) else pk) hw' (by simp)
    refine ⟨v, ?_, ?_⟩
    · rw [e1]
      cases ks with
      | nil => simp
      | cons => simp
    · rw [e2]
      constructor
      · rintro ⟨hv, hall⟩
        simp at hv
        refine ⟨hv.1, fun a b ha hb e => ?_⟩
        cases a with
        | nil => exact absurd rfl ha
        | cons x a =>
          simp at e
          obtain ⟨rfl, e⟩ := e
          by_cases han : a = []
          · subst han; exact hv.2
          · have := hall a b han hb e
            simpa using this
      · rintro ⟨hv, hall⟩
        refine ⟨?_, fun a b ha hb e => ?_⟩
        · have := hall [k] (k' :: ks) (by simp) (by simp) (by simp)
          simp [hv, this]
        · have := hall (k :: a) b (by simp) hb (by simp [e])
          simpa using this

/-- The key of a standard table on an empty stack. -/
theorem getArrayTableKey_std (m : KMap) (h : Heap) {t : Table} (hw : (TableType.std t).wf) (ts : List TableType) (i : Nat) :
    ∃ v, getArrayTableKey m h (.std t :: ts) [i] = .ok (v, nkey t.names, par t.names.dropLast) ∧ (v = true ↔ Free m h t.names) := by
  have hne : t.names ≠ [] := by
    have : t.keys ≠ [] := hw.1
    simpa [Table.names] using this
  have hnw : NamesWf t.names := by
    intro k hk
    simp [Table.names] at hk
    obtain ⟨x, hx, rfl⟩ := hk
    exact (hw.2 x hx).2
  have hlast : (lastKeys t).getLastD [] = t.names.getLast hne := by
    rw [lastKeys]
    show (root :: t.names).getLastD [] = _
    rw [List.getLastD_cons, List.getLastD_eq_getLast?, List.getLast?_eq_some_getLast hne]
    rfl
  have hstep : ∀ (fk : Str) (valid : Bool) (pk : Str), stdKeyInner m h (lastKeys t) fk valid pk = stdKeyInner m h t.names fk valid pk := by
    intro fk valid pk
    show stdKeyInner m h (root :: t.names) fk valid pk = _
    cases hn : t.names with
    | nil => exact absurd hn hne
    | cons k ks => rw [stdKeyInner, if_pos rfl]
  obtain ⟨v, e1, e2⟩ := stdKeyInner_eq m h t.names [] true root (by simpa using hnw) hne
  have hd : dotAfter [] = [] := rfl
  rw [hd] at e1
  rw [getArrayTableKey, arrayTableKeyLoop]
  simp only [List.drop_zero, hstep, e1, hlast, List.nil_append, arrayTableKeyLoop]
  have hk : dotAfter t.names.dropLast ++ t.names.getLast hne = nkey t.names := by
    rw [dotAfter_add (fun k hk => hnw k (List.dropLast_subset _ hk)), List.dropLast_concat_getLast]
  rw [hk]
  refine ⟨v && !keyHasValue m h (nkey t.names), ?_, ?_⟩
  · rw [Out.ok.injEq, Prod.mk.injEq, Prod.mk.injEq]
    refine ⟨rfl, rfl, ?_⟩
    by_cases h1 : t.names.length = 1
    · have : t.names.dropLast = [] := by
        rw [List.length_eq_one_iff] at h1
        obtain ⟨k, e⟩ := h1
        rw [e]; rfl
      rw [if_pos h1, this]; rfl
    · rw [if_neg h1, par, if_neg]
      intro e
      have := congrArg List.length e
      have h2 : t.names.length ≠ 0 := by simpa using hne
      simp at this
      omega
  · simp only [Bool.and_eq_true, Bool.not_eq_true', e2, true_and]
    constructor
    · rintro ⟨h1, h2⟩ a b ha e
      by_cases hb : b = []
      · subst hb; simp at e; subst e; exact h2
      · have := h1 a b ha hb e
        simpa using this
    · intro hf
      exact ⟨fun a b ha _ e => by simpa using hf a b ha e, hf t.names [] hne (by simp)⟩

/-- The state belongs to the root (`[]`) or to a standard table; there is no array of tables. -/
def Ctx (T : List Str) (st : PState) : Prop :=
  st.lastArrayTables.length = st.lastArrayTablesIndex.length ∧ st.arrayError = false ∧ NamesWf T ∧
  if T = [] then st.lastTable = none ∧ st.lastArrayTables = []
  else ∃ t, (TableType.std t).wf ∧ t.names = T ∧ st.lastTable = some (.std t) ∧ st.lastArrayTables = [.std t]

theorem Ctx.congr {T : List Str} {st st' : PState} (h : Ctx T st) (h1 : st'.lastTable = st.lastTable) (h2 : st'.lastArrayTables = st.lastArrayTables)
    (h3 : st'.lastArrayTablesIndex = st.lastArrayTablesIndex) (h4 : st'.arrayError = st.arrayError) : Ctx T st' := by
  unfold Ctx at h ⊢
  rw [h1, h2, h3, h4]
  exact h

theorem Ctx.frame {T : List Str} {st st' : PState} (h : Ctx T st) (f : Frame st st') : Ctx T st' := h.congr f.lastTable f.tables f.index f.err
theorem Ctx.frame' {T : List Str} {st st' : PState} (h : Ctx T st) (f : Frame' st st') : Ctx T st' := h.congr f.lastTable f.tables f.index f.err

theorem keyOf_below {b : Str} (hb : b ≠ []) {k : Str} (hk : k ≠ []) (p : List Key) :
    b ++ lit% "." ++ keyOf [] (.str k :: p) = keyOf b (.str k :: p) := by
  rw [keyOf_nil_cons hk, keyOf_rest _ hb]
  simp [restStr]

/-- The full key of a value, and where its parent keeps its children. -/
theorem Ctx.getFullKey {T : List Str} {st : PState} (h : Ctx T st) {kc : List Key} (hk : PathWf kc) (hne : kc ≠ []) (ts : List TableType)
    (hT : T ≠ [] → True) : ∃ v, getFullKey st.map st.heap (st.lastArrayTables ++ (if T = [] then [] else ts)) st.lastArrayTablesIndex kc =
      .ok (v, keyOf [] (names T ++ kc), keyOf [] (names T ++ kc.dropLast)) := by
  obtain ⟨h1, h2, h3, h4⟩ := h
  cases kc with
  | nil => exact absurd rfl hne
  | cons k kc =>
    cases k with
    | idx => exact hk.elim
    | str k =>
      simp only [Tomllib.getFullKey, Out.bind_eq]
      by_cases hT : T = []
      · subst hT
        rw [if_pos rfl] at h4
        rw [h4.2] at h1 ⊢
        simp at h1
        have : st.lastArrayTablesIndex = [] := List.length_eq_zero_iff.mp h1.symm
        rw [this, if_pos rfl]
        simp only [getArrayTableKey, List.append_nil, arrayTableKeyLoop, Out.bind, getKeychainKey_eq]
        exact ⟨_, by simp [names]; rfl⟩
      · rw [if_neg hT] at h4
        obtain ⟨t, g1, g2, g3, g4⟩ := h4
        rw [g4] at h1 ⊢
        simp at h1
        obtain ⟨i, hi⟩ := List.length_eq_one_iff.mp h1.symm
        rw [hi, if_neg hT]
        obtain ⟨v, e1, _⟩ := getArrayTableKey_std st.map st.heap g1 ts i
        have hb : nkey T ≠ [] := keyOf_ne_nil h3.path (by simpa [names] using hT)
        simp only [List.cons_append, List.nil_append, e1, Out.bind, getKeychainKey_eq, g2]
        refine ⟨v, ?_⟩
        rw [if_pos hb, if_pos hb, keyOf_below hb hk.1.ne, keyOf_append, keyOf_append]
        cases kc with
        | nil => simp [keyOf]
        | cons k' kc =>
          have hd : (Key.str k :: k' :: kc).dropLast = .str k :: (k' :: kc).dropLast := rfl
          rw [hd, if_pos (keyOf_ne_nil (p := .str k :: (k' :: kc).dropLast) ⟨hk.1, fun s hs => hk.2 s (List.dropLast_subset _ hs)⟩ (by simp)),
            keyOf_below hb hk.1.ne]

theorem Ctx.insertKeys {T : List Str} {st : PState} (h : Ctx T st) (hk : PathWf st.keychain) (hne : st.keychain ≠ []) :
    insertKeys st = .ok (keyOf [] (names T ++ st.keychain),
      if names T ++ st.keychain.dropLast = [] then root else keyOf [] (names T ++ st.keychain.dropLast)) := by
  unfold Tomllib.insertKeys
  by_cases hT : T = []
  · subst hT
    have h4 := h.2.2.2
    rw [if_pos rfl] at h4
    rw [h4.1]
    simp only [getKeychainKey_eq, names, List.map_nil, List.nil_append, Out.ok.injEq, Prod.mk.injEq, true_and]
    by_cases hd : st.keychain.dropLast = []
    · rw [hd]; simp [keyOf]
    · rw [if_neg (keyOf_ne_nil (by
        have := hk
        rw [← List.dropLast_concat_getLast hne] at this
        exact this.left) hd), if_neg hd]
  · have h4 := h.2.2.2
    rw [if_neg hT] at h4
    obtain ⟨t, g1, g2, g3, g4⟩ := h4
    rw [g3]
    simp only [Out.bind_eq]
    obtain ⟨v, e⟩ := h.getFullKey hk hne [.std t] (fun _ => trivial)
    rw [if_neg hT] at e
    rw [e]
    have : names T ≠ [] := by simpa [names] using hT
    simp [Out.bind, this]

theorem Table.key_eq (t : Table) : t.key = nkey t.names := by
  simp only [Table.key, nkey, keyOf, Tomllib.names, List.foldl_map, Key.add]

theorem par_eq (ks : List Str) : par ks = if names ks = [] then root else keyOf [] (names ks) := by
  simp [par, names, nkey]

end Tomllib
