import Verif.Lemmas.Exact
import Verif.Lemmas.Header
/-!
# The stack of open arrays of tables
-/

namespace Tomllib

/-- The text of a key before the next name. -/
def dotP (b : List Key) : Str := if b = [] then [] else keyOf [] b ++ lit% "."

theorem dotP_add {b : List Key} (hb : PathWf b) (k : Str) : dotP b ++ k = keyOf [] (b ++ [.str k]) := by
  have : keyOf [] (b ++ [.str k]) = Key.add (keyOf [] b) (.str k) := by simp [keyOf]
  rw [this, Key.add_eq, dotP]
  by_cases h : b = []
  · subst h; simp [keyOf]
  · simp [h, keyOf_ne_nil hb h]

theorem keyOf_idx (b : List Key) (i : Nat) : keyOf [] (b ++ [.idx i]) = keyOf [] b ++ idxStr i := by
  have : keyOf [] (b ++ [.idx i]) = Key.add (keyOf [] b) (.idx i) := by simp [keyOf]
  rw [this, Key.add_eq]

theorem KP_ne {m : KMap} {p : List Key} (h : p ≠ []) : m.get? (keyOf [] p) = KP m p := by rw [KP, parP_ne h]

theorem arrKeyInner_eq (m : KMap) : ∀ (ks : List Str) (b : List Key), PathWf (b ++ names ks) → ks ≠ [] →
    (∀ x k y, x ≠ [] → x ++ k :: y = ks → ∃ v l, KP m (b ++ names x) = some ⟨v, .keys l⟩ ∧ k ∈ l) →
    arrKeyInner m ks (dotP b) = .ok (dotP (b ++ names ks.dropLast))
  | [], _, _, h, _ => absurd rfl h
  | [k], b, _, _, _ => by simp [arrKeyInner, names]
  | k :: k' :: ks, b, hw, _, hb => by
    have hw' : PathWf ((b ++ [.str k]) ++ names (k' :: ks)) := by simpa [names] using hw
    have hwb : PathWf b := hw.left
    obtain ⟨v, l, e1, e2⟩ := hb [k] k' ks (by simp) rfl
    have hne : b ++ [Key.str k] ≠ [] := by simp
    have hr : keyOf [] (b ++ [.str k]) ≠ root := keyOf_ne_root hw'.left
    have hg : m.get? (keyOf [] (b ++ [.str k])) = some ⟨v, .keys l⟩ := by rw [KP_ne hne]; exact e1
    rw [arrKeyInner, dotP_add hwb]
    simp only [hg, e2, true_or, if_true, if_neg hr]
    have := arrKeyInner_eq m (k' :: ks) (b ++ [.str k]) hw' (by simp) (fun x j y hx e => by
      have := hb (k :: x) j y (by simp) (by simp [e])
      simpa [names] using this)
    have hd : keyOf [] (b ++ [.str k]) ++ lit% "." = dotP (b ++ [.str k]) := by rw [dotP, if_neg hne]
    rw [hd, this]
    simp [names]

/-- The place of the next names in the keys of a header. -/
def pe (A : List Str) : Nat := if A = [] then 0 else A.length + 1

/-- A stack of open arrays of tables, the names of the innermost, and the path of its last element. The entries are given by `K`. -/
inductive TChain (K : List Key → Option HashValue) : List TableType → List Nat → List Str → List Key → Prop
  | nil : TChain K [] [] [] []
  | snoc {ts : List TableType} {is : List Nat} {A : List Str} {b : List Key} (t : Table) (ks : List Str) (c : Nat) : TChain K ts is A b →
      (TableType.arr t).wf → t.names = A ++ ks → ks ≠ [] → (∀ x k y, x ++ k :: y = ks → ∃ v l, K (b ++ names x) = some ⟨v, .keys l⟩ ∧ k ∈ l) →
      K (b ++ names ks) = some ⟨none, .count (c + 1)⟩ → TChain K (ts ++ [.arr t]) (is ++ [c]) t.names (b ++ names ks ++ [.idx c])

theorem Table.namesWf {t : Table} (h : ∀ k ∈ t.keys, k.ws.wf ∧ KeyWf k.key) : NamesWf t.names := by
  intro k hk
  simp [Table.names] at hk
  obtain ⟨x, hx, rfl⟩ := hk
  exact (h x hx).2

theorem TChain.wf {K : List Key → Option HashValue} {ts : List TableType} {is : List Nat} {A : List Str} {b : List Key} (h : TChain K ts is A b) : NamesWf A ∧ PathWf b ∧ (A = [] ↔ b = []) := by
  induction h with
  | nil => exact ⟨by simp [NamesWf], trivial, by simp⟩
  | snoc t ks c _ hw hn hne _ _ ih =>
    have hN : NamesWf t.names := Table.namesWf hw.2
    refine ⟨hN, ?_, by simp [hn, hne]⟩
    refine PathWf.append (ih.2.1.append' (NamesWf.path ?_)) (by simp [names_ne hne]) (by simp)
    rw [hn] at hN
    exact hN.right

theorem TChain.len {K : List Key → Option HashValue} {ts : List TableType} {is : List Nat} {A : List Str} {b : List Key} (h : TChain K ts is A b) :
    ts.length = is.length ∧ (A = [] ↔ ts = []) := by
  induction h with
  | nil => simp
  | snoc t ks c _ hw hn hne _ _ ih => simp [ih.1, hn, hne]

theorem TChain.congr {K K' : List Key → Option HashValue} {ts : List TableType} {is : List Nat} {A : List Str} {b : List Key} (h : TChain K ts is A b)
    (hk : ∀ r, r <+: b → r ≠ b → K' r = K r) : TChain K' ts is A b := by
  induction h with
  | nil => exact .nil
  | @snoc ts is A b t ks c h hw hn hne hb hc ih =>
    have hlt : ∀ r, r <+: b ++ names ks → K' r = K r := fun r hr => hk r (hr.trans (List.prefix_append _ _)) (fun e => by
      have := hr.length_le
      rw [e] at this
      simp at this
      omega)
    refine .snoc t ks c (ih fun r hr hn => hlt r (hr.trans (List.prefix_append _ _))) hw hn hne (fun x k y e => ?_) ?_
    · rw [hlt]
      · exact hb x k y e
      · rw [← e, names_append, ← List.append_assoc]; exact List.prefix_append _ _
    · rw [hlt _ (List.prefix_refl _)]; exact hc

theorem drop_pe {t : Table} {A ks : List Str} (hn : t.names = A ++ ks) : (lastKeys t).drop (pe A) = if A = [] then root :: ks else ks := by
  have : lastKeys t = root :: t.names := rfl
  rw [this, hn]
  unfold pe
  split
  next h => subst h; rfl
  next h => simp

theorem arr_step {m : KMap} {t : Table} {A ks : List Str} {b : List Key} (hn : t.names = A ++ ks) (hA : A = [] ↔ b = []) (hw : PathWf (b ++ names ks)) (hne : ks ≠ [])
    (hb : ∀ x k y, (x ≠ [] ∨ b = []) → x ++ k :: y = ks → ∃ v l, KP m (b ++ names x) = some ⟨v, .keys l⟩ ∧ k ∈ l) :
    arrKeyInner m ((lastKeys t).drop (pe A)) (dotP b) = .ok (dotP (b ++ names ks.dropLast)) := by
  rw [drop_pe hn]
  have h1 := arrKeyInner_eq m ks b hw hne (fun x k y hx => hb x k y (.inl hx))
  split
  next h =>
    obtain rfl := hA.mp h
    cases ks with
    | nil => exact absurd rfl hne
    | cons k ks =>
      obtain ⟨v, l, e1, e2⟩ := hb [] k ks (.inr rfl) rfl
      have e1 : m.get? root = some ⟨v, .keys l⟩ := e1
      rw [arrKeyInner]
      have : dotP [] = [] := rfl
      rw [this] at h1 ⊢
      simp only [List.nil_append, e1, e2, true_or, if_true]
      simpa using h1
  · exact h1

theorem arr_full {ks : List Str} {t : Table} {A : List Str} {b : List Key} (hn : t.names = A ++ ks) (hw : PathWf (b ++ names ks)) (hne : ks ≠ []) :
    dotP (b ++ names ks.dropLast) ++ (lastKeys t).getLastD [] = keyOf [] (b ++ names ks) := by
  have hlast : (lastKeys t).getLastD [] = ks.getLast hne := by
    rw [lastKeys]
    show (root :: t.names).getLastD [] = _
    rw [List.getLastD_cons, List.getLastD_eq_getLast?, hn, List.getLast?_append, List.getLast?_eq_some_getLast hne]
    rfl
  have h := List.dropLast_concat_getLast hne
  have h2 : b ++ names ks = b ++ names ks.dropLast ++ [.str (ks.getLast hne)] := by
    conv => lhs; rw [← h]
    simp [names]
  rw [h2] at hw ⊢
  rw [hlast, dotP_add hw.left]

/-- The stack below, before another header. -/
theorem TChain.loop {m : KMap} {h : Heap} {ts : List TableType} {is : List Nat} {A : List Str} {b : List Key} (hc : TChain (KP m) ts is A b) :
    ∀ (rts : List TableType) (ris : List Nat), ris ≠ [] →
      arrayTableKeyLoop m h (ts ++ rts) (is ++ ris) [] 0 true root = arrayTableKeyLoop m h rts ris (dotP b) (pe A) true root := by
  induction hc with
  | nil => intro rts ris _; rfl
  | @snoc ts is A b t ks c hc hw hn hne hb hk ih =>
    intro rts ris hr
    rw [List.append_assoc, List.append_assoc, ih _ _ (by simp)]
    have hwk : PathWf (b ++ names ks) := by
      have := (TChain.snoc t ks c hc hw hn hne hb hk).wf.2.1
      exact this.left
    have hne' : b ++ names ks ≠ [] := by simp [names_ne hne]
    have hg : m.get? (keyOf [] (b ++ names ks)) = some ⟨none, .count (c + 1)⟩ := by rw [KP_ne hne']; exact hk
    have hv : arrTableValid m (keyOf [] (b ++ names ks)) true = true := by rw [arrTableValid, hg]
    have hi : arrTableIndex m (keyOf [] (b ++ names ks)) c = .ok c := by rw [arrTableIndex, hg]; simp
    have hs := arr_step (m := m) hn hc.wf.2.2 hwk hne (fun x k y _ => hb x k y)
    simp only [List.cons_append, List.nil_append]
    rw [arrayTableKeyLoop, hs]
    simp only [Out.bind_eq, Out.bind]
    rw [arr_full hn hwk hne, hv, hi]
    simp only [Out.bind, if_pos hr]
    have h1 : pe t.names = (lastKeys t).length := by
      have : t.names ≠ [] := by rw [hn]; simp [hne]
      rw [pe, if_neg this]
      show _ = (root :: t.names).length
      simp
    have h2 : dotP (b ++ names ks ++ [.idx c]) = keyOf [] (b ++ names ks) ++ lit% "[" ++ natStr c ++ lit% "]." := by
      rw [dotP, if_neg (by simp), keyOf_idx]
      simp [idxStr]
    rw [h1, h2]

/-- The keys of the innermost array and of its last element. -/
theorem TChain.top {m : KMap} (h : Heap) {ts : List TableType} {is : List Nat} {A : List Str} {b : List Key} (hc : TChain (KP m) ts is A b) (hnb : b ≠ []) :
    getArrayTableKey m h ts is = .ok (true, keyOf [] b, keyOf [] b.dropLast) := by
  cases hc with
  | nil => exact absurd rfl hnb
  | @snoc ts is A b t ks c hc hw hn hne hb hk =>
    have hwk : PathWf (b ++ names ks) := by
      have := (TChain.snoc t ks c hc hw hn hne hb hk).wf.2.1
      exact this.left
    have hne' : b ++ names ks ≠ [] := by simp [names_ne hne]
    have hg : m.get? (keyOf [] (b ++ names ks)) = some ⟨none, .count (c + 1)⟩ := by rw [KP_ne hne']; exact hk
    have hv : arrTableValid m (keyOf [] (b ++ names ks)) true = true := by rw [arrTableValid, hg]
    have hi : arrTableIndex m (keyOf [] (b ++ names ks)) c = .ok c := by rw [arrTableIndex, hg]; simp
    have hs := arr_step (m := m) hn hc.wf.2.2 hwk hne (fun x k y _ => hb x k y)
    rw [getArrayTableKey, hc.loop _ _ (by simp), arrayTableKeyLoop, hs]
    simp only [Out.bind_eq, Out.bind]
    rw [arr_full hn hwk hne, hv, hi]
    simp only [Out.bind, ne_eq, not_true, if_false, arrayTableKeyLoop, keyOf_idx, List.dropLast_concat]

/-- An array that is not there yet, put on the stack. -/
theorem TChain.topNew {m : KMap} (h : Heap) {ts : List TableType} {is : List Nat} {A : List Str} {b : List Key} (hc : TChain (KP m) ts is A b) {t : Table} {ks : List Str}
    (hw : (TableType.arr t).wf) (hn : t.names = A ++ ks) (hne : ks ≠ []) (hb : ∀ x k y, x ++ k :: y = ks → ∃ v l, KP m (b ++ names x) = some ⟨v, .keys l⟩ ∧ k ∈ l)
    (hk : KP m (b ++ names ks) = none) :
    getArrayTableKey m h (ts ++ [.arr t]) (is ++ [0]) = .ok (true, keyOf [] (b ++ names ks ++ [.idx 0]), keyOf [] (b ++ names ks)) := by
  have hN : NamesWf t.names := Table.namesWf hw.2
  have hwk : PathWf (b ++ names ks) := hc.wf.2.1.append' (NamesWf.path (by rw [hn] at hN; exact hN.right))
  have hne' : b ++ names ks ≠ [] := by simp [names_ne hne]
  have hg : m.get? (keyOf [] (b ++ names ks)) = none := by rw [KP_ne hne']; exact hk
  have hv : arrTableValid m (keyOf [] (b ++ names ks)) true = true := by rw [arrTableValid, hg]
  have hi : arrTableIndex m (keyOf [] (b ++ names ks)) 0 = .ok 0 := by rw [arrTableIndex, hg]
  have hs := arr_step (m := m) hn hc.wf.2.2 hwk hne (fun x k y _ => hb x k y)
  rw [getArrayTableKey, hc.loop _ _ (by simp), arrayTableKeyLoop, hs]
  simp only [Out.bind_eq, Out.bind]
  rw [arr_full hn hwk hne, hv, hi]
  simp only [Out.bind, ne_eq, not_true, if_false, arrayTableKeyLoop, keyOf_idx]

theorem stdKeyInner_path (m : KMap) (h : Heap) : ∀ (ks : List Str) (b : List Key) (valid : Bool) (pk : Str), PathWf (b ++ names ks) → ks ≠ [] →
    ∃ v, stdKeyInner m h ks (dotP b) valid pk = (dotP (b ++ names ks.dropLast), v, if ks.length = 1 then pk else keyOf [] (b ++ names ks.dropLast)) ∧
      ((∀ x y, x ≠ [] → y ≠ [] → x ++ y = ks → keyHasValue m h (keyOf [] (b ++ names x)) = false) → v = valid)
  | [], _, _, _, _, hne => absurd rfl hne
  | [k], b, valid, pk, hw, _ => ⟨valid, by simp [stdKeyInner, names], fun _ => rfl⟩
  | k :: k' :: ks, b, valid, pk, hw, _ => by
    have hw' : PathWf ((b ++ [.str k]) ++ names (k' :: ks)) := by simpa [names] using hw
    have hkr : k ≠ root := (hw'.left.names k (by simp)).ne_root
    have hne : b ++ [Key.str k] ≠ [] := by simp
    rw [stdKeyInner, if_neg hkr, dotP_add hw.left]
    dsimp only
    have hdot : keyOf [] (b ++ [.str k]) ++ lit% "." = dotP (b ++ [.str k]) := by rw [dotP, if_neg hne]
    rw [hdot]
    obtain ⟨v, e1, e2⟩ := stdKeyInner_path m h (k' :: ks) (b ++ [.str k]) (valid && !keyHasValue m h (keyOf [] (b ++ [.str k])))
      (if ks = [] then keyOf [] (b ++ [.str k]) else pk) hw' (by simp)
    refine ⟨v, ?_, fun hall => ?_⟩
    · rw [e1]
      cases ks with
      | nil => simp [names]
      | cons => simp [names]
    · have h1 := hall [k] (k' :: ks) (by simp) (by simp) rfl
      rw [e2 (fun x y hx hy e => by
        have := hall (k :: x) y (by simp) hy (by simp [e])
        simpa [names] using this)]
      have h1 : keyHasValue m h (keyOf [] (b ++ [.str k])) = false := h1
      rw [h1]; simp

/-- The key of a table with a header, and that of its parent: the parent is found only if it is not an element of an array of tables. -/
theorem TChain.std {m : KMap} (h : Heap) {ts : List TableType} {is : List Nat} {A : List Str} {b : List Key} (hc : TChain (KP m) ts is A b) {t : Table} {ks : List Str}
    (hw : (TableType.std t).wf) (hn : t.names = A ++ ks) (hne : ks ≠ []) (rts : List TableType) (i : Nat) :
    ∃ v, getArrayTableKey m h (ts ++ .std t :: rts) (is ++ [i]) = .ok (v, keyOf [] (b ++ names ks), if ks.length = 1 then root else keyOf [] (b ++ names ks.dropLast)) ∧
      ((∀ x y, x ≠ [] → x ++ y = ks → keyHasValue m h (keyOf [] (b ++ names x)) = false) → v = true) := by
  have hN : NamesWf t.names := Table.namesWf hw.2
  have hwk : PathWf (b ++ names ks) := hc.wf.2.1.append' (NamesWf.path (by rw [hn] at hN; exact hN.right))
  obtain ⟨v, e1, e2⟩ := stdKeyInner_path m h ks b true root hwk hne
  have hs : stdKeyInner m h ((lastKeys t).drop (pe A)) (dotP b) true root = stdKeyInner m h ks (dotP b) true root := by
    rw [drop_pe hn]
    split
    · cases ks with
      | nil => exact absurd rfl hne
      | cons k ks => rw [stdKeyInner, if_pos rfl]
    · rfl
  rw [getArrayTableKey, hc.loop _ _ (by simp), arrayTableKeyLoop, hs, e1]
  dsimp only
  rw [arr_full hn hwk hne]
  refine ⟨_, by rw [arrayTableKeyLoop], fun hall => ?_⟩
  rw [e2 (fun x y hx _ e => hall x y hx e), hall ks [] hne (by simp)]
  rfl

/-! ## The texts of the keys, without looking anything up -/

theorem keyParentInner_eq : ∀ (ks : List Str) (b : List Key), PathWf (b ++ names ks) → ks ≠ [] →
    keyParentInner ks (dotP b) = keyOf [] (b ++ names ks)
  | [], _, _, h => absurd rfl h
  | [k], b, hw, _ => by
    have hkr : k ≠ root := (hw.names k (by simp [names])).ne_root
    rw [keyParentInner, if_pos hkr, dotP_add hw.left]; rfl
  | k :: k' :: ks, b, hw, _ => by
    have hw' : PathWf ((b ++ [.str k]) ++ names (k' :: ks)) := by simpa [names] using hw
    have hkr : k ≠ root := (hw'.left.names k (by simp)).ne_root
    rw [keyParentInner, if_pos hkr, dotP_add hw.left]
    have hdot : keyOf [] (b ++ [.str k]) ++ lit% "." = dotP (b ++ [.str k]) := by rw [dotP, if_neg (by simp)]
    rw [hdot, keyParentInner_eq (k' :: ks) _ hw' (by simp)]
    simp [names]

theorem keyParent_step {t : Table} {A ks : List Str} {b : List Key} (hn : t.names = A ++ ks) (hA : A = [] ↔ b = []) (hw : PathWf (b ++ names ks)) (hne : ks ≠ []) :
    keyParentInner ((lastKeys t).drop (pe A)) (if keyOf [] b ≠ [] then keyOf [] b ++ lit% "." else keyOf [] b) = keyOf [] (b ++ names ks) := by
  have hd : (if keyOf [] b ≠ [] then keyOf [] b ++ lit% "." else keyOf [] b) = dotP b := by
    unfold dotP
    by_cases h : b = []
    · subst h; simp [keyOf]
    · rw [if_neg h, if_pos (keyOf_ne_nil hw.left h)]
  rw [hd, ← keyParentInner_eq ks b hw hne, drop_pe hn]
  split
  next h =>
    obtain rfl := hA.mp h
    cases ks with
    | nil => exact absurd rfl hne
    | cons k ks => rw [keyParentInner]; simp
  · rfl

theorem TChain.parentLoop {K : List Key → Option HashValue} {ts : List TableType} {is : List Nat} {A : List Str} {b : List Key} (hc : TChain K ts is A b) :
    ∀ (rts : List TableType) (ris : List Nat), ris ≠ [] → keyParentLoop (ts ++ rts) (is ++ ris) [] 0 = keyParentLoop rts ris (keyOf [] b) (pe A) := by
  induction hc with
  | nil => intro rts ris _; rfl
  | @snoc ts is A b t ks c hc hw hn hne hb hk ih =>
    intro rts ris hr
    have hwk : PathWf (b ++ names ks) := by
      have := (TChain.snoc t ks c hc hw hn hne hb hk).wf.2.1
      exact this.left
    rw [List.append_assoc, List.append_assoc, ih _ _ (by simp)]
    simp only [List.cons_append, List.nil_append]
    rw [keyParentLoop, keyParent_step hn hc.wf.2.2 hwk hne, if_pos hr, keyOf_idx]
    have h1 : pe t.names = (lastKeys t).length := by
      have : t.names ≠ [] := by rw [hn]; simp [hne]
      rw [pe, if_neg this]
      show _ = (root :: t.names).length
      simp
    rw [h1]

theorem TChain.parentNew {K : List Key → Option HashValue} {ts : List TableType} {is : List Nat} {A : List Str} {b : List Key} (hc : TChain K ts is A b) {t : Table} {ks : List Str}
    (hw : (TableType.arr t).wf) (hn : t.names = A ++ ks) (hne : ks ≠ []) (c : Nat) :
    getKeyParent (ts ++ [.arr t]) (is ++ [c]) = .ok (keyOf [] (b ++ names ks)) := by
  have hN : NamesWf t.names := Table.namesWf hw.2
  have hwk : PathWf (b ++ names ks) := hc.wf.2.1.append' (NamesWf.path (by rw [hn] at hN; exact hN.right))
  rw [getKeyParent, hc.parentLoop _ _ (by simp), keyParentLoop, keyParent_step hn hc.wf.2.2 hwk hne]
  simp [keyParentLoop]

theorem TChain.parent {K : List Key → Option HashValue} {ts : List TableType} {is : List Nat} {A : List Str} {b : List Key} (hc : TChain K ts is A b) :
    getKeyParent ts is = .ok (keyOf [] b.dropLast) := by
  cases hc with
  | nil => rfl
  | @snoc ts is A b t ks c hc hw hn hne hb hk =>
    rw [hc.parentNew hw hn hne, List.dropLast_concat]

/-! ## Where keys belong -/

/-- The stacks: `cts` are the open arrays of tables, `A` the names of the innermost one, `b` the path of its last element, and `here` the table which keys belong to. -/
structure Stack (K : List Key → Option HashValue) (st : PState) (cts : List TableType) (cis : List Nat) (A : List Str) (b here : List Key) : Prop where
  chain : TChain K cts cis A b
  top : (∃ t ks, (TableType.std t).wf ∧ t.names = A ++ ks ∧ ks ≠ [] ∧ st.lastArrayTables = cts ++ [.std t] ∧ st.lastArrayTablesIndex = cis ++ [0] ∧
      st.lastTable = some (.std t) ∧ here = b ++ names ks) ∨
    (st.lastArrayTables = cts ∧ st.lastArrayTablesIndex = cis ∧ here = b ∧ (b = [] → st.lastTable = none) ∧ (b ≠ [] → ∃ t, st.lastTable = some (.arr t)))
  err : st.arrayError = false

theorem fullKey_below {b : List Key} (hb : PathWf b) (hne : b ≠ []) {kc : List Key} (hk : PathWf kc) (hkn : kc ≠ []) :
    (if keyOf [] b ≠ [] then keyOf [] b ++ lit% "." ++ keyOf [] kc else keyOf [] kc) = keyOf [] (b ++ kc) ∧
    (if keyOf [] b ≠ [] then keyOf [] b ++ (if keyOf [] kc.dropLast ≠ [] then lit% "." else []) ++ keyOf [] kc.dropLast else keyOf [] kc.dropLast) = parP (b ++ kc.dropLast) := by
  have h1 : keyOf [] b ≠ [] := keyOf_ne_nil hb hne
  have h2 : ∀ l, keyOf [] (b ++ l) = keyOf (keyOf [] b) l := fun l => by simp [keyOf]
  rw [if_pos h1, if_pos h1, parP_ne (by simp [hne]), h2, h2]
  cases kc with
  | nil => exact absurd rfl hkn
  | cons k kc =>
    cases k with
    | idx => exact hk.elim
    | str k =>
      refine ⟨keyOf_below h1 hk.1.ne kc, ?_⟩
      cases kc with
      | nil => simp [keyOf]
      | cons k' kc =>
        have h3 : keyOf [] (.str k :: (k' :: kc).dropLast) ≠ [] := by
          rw [keyOf_nil_cons hk.1.ne]
          simp [hk.1.ne]
        rw [List.dropLast_cons_cons, if_pos h3]
        exact keyOf_below h1 hk.1.ne _

theorem Stack.at {st : PState} {cts : List TableType} {cis : List Nat} {A : List Str} {b here : List Key} (h : Stack (KP st.map) st cts cis A b here) : At here st := by
  refine ⟨h.err, ?_, fun m hp kc hm hk hkn => ?_⟩
  · rcases h.top with ⟨t, ks, hw, hn, _, _, _, _, rfl⟩ | ⟨_, _, rfl, _⟩
    · have hN : NamesWf t.names := Table.namesWf hw.2
      exact h.chain.wf.2.1.append' (NamesWf.path (by rw [hn] at hN; exact hN.right))
    · exact h.chain.wf.2.1
  · have hpre : b <+: here := by
      rcases h.top with ⟨t, ks, hw, hn, _, _, _, _, rfl⟩ | ⟨_, _, rfl, _⟩
      · exact List.prefix_append _ _
      · exact List.prefix_refl _
    have hc : TChain (KP m) cts cis A b := h.chain.congr fun r hr hn => hm r (hr.trans hpre) (fun e => hn (by
      have h1 := hr.length_le
      have h2 := hpre.length_le
      rw [e] at h1
      exact (e.trans (hpre.eq_of_length (by omega)).symm)))
    rcases h.top with ⟨t, ks, hw, hn, hne, e1, e2, e3, rfl⟩ | ⟨e1, e2, rfl, e3, e4⟩
    · have hN : NamesWf t.names := Table.namesWf hw.2
      have hwk : PathWf (b ++ names ks) := h.chain.wf.2.1.append' (NamesWf.path (by rw [hn] at hN; exact hN.right))
      obtain ⟨v, e5, _⟩ := hc.std hp hw hn hne [.std t] 0
      obtain ⟨f1, f2⟩ := fullKey_below hwk (by simp [names_ne hne]) hk hkn
      unfold insertKeys
      simp only [e3, e1, e2, getFullKey, Out.bind_eq]
      rw [show cts ++ [TableType.std t] ++ [.std t] = cts ++ .std t :: [.std t] by simp, e5]
      simp only [Out.bind, getKeychainKey_eq]
      rw [f1, f2]
    · by_cases hb : here = []
      · subst hb
        unfold insertKeys
        simp only [e3 rfl, getKeychainKey_eq, List.nil_append]
        congr 2
        unfold parP
        by_cases hd : kc.dropLast = []
        · simp [hd, keyOf]
        · have hw' : PathWf kc.dropLast := by
            have := hk
            rw [← List.dropLast_concat_getLast hkn] at this
            exact this.left
          rw [if_neg hd, if_neg (keyOf_ne_nil hw' hd)]
      · obtain ⟨t, e4⟩ := e4 hb
        obtain ⟨f1, f2⟩ := fullKey_below hc.wf.2.1 hb hk hkn
        unfold insertKeys
        simp only [e4, e1, e2, getFullKey, Out.bind_eq]
        rw [hc.top hp hb]
        simp only [Out.bind, getKeychainKey_eq]
        rw [f1, f2]

end Tomllib
