import Verif.Lemmas.Table
/-!
# Names of children and entries match, continued: values and lines
-/

namespace Tomllib

/-- Between lines `X` is empty; while a value is read it has the paths that are being built. `H` is a later heap. -/
structure TabX (X : List Str → Prop) (m : KMap) (H : Heap) : Prop where
  up : ∀ Q k, NamesWf (Q ++ [k]) → Free m H Q → m.get? (nkey (Q ++ [k])) ≠ none → ¬ X (Q ++ [k]) → hasName m (par Q) k
  kind : ∀ Q, NamesWf Q → Free m H Q → ¬ X Q → keysK m (par Q)
  down : ∀ Q k, NamesWf Q → Free m H Q → hasName m (par Q) k → KeyWf k ∧ m.get? (nkey (Q ++ [k])) ≠ none

theorem TabX.weaken {X Y : List Str → Prop} {m : KMap} {H : Heap} (h : TabX X m H) (hXY : ∀ Q, X Q → Y Q) : TabX Y m H :=
  ⟨fun Q k hw hf hs hy => h.up Q k hw hf hs fun hx => hy (hXY _ hx), fun Q hw hf hy => h.kind Q hw hf fun hx => hy (hXY _ hx), h.down⟩

theorem Free.congr {m m' : KMap} {h h' : Heap} {Q : List Str} (hw : NamesWf Q)
    (hk : ∀ a, NamesWf a → a ≠ [] → keyHasValue m' h' (nkey a) = keyHasValue m h (nkey a)) : Free m' h' Q ↔ Free m h Q := by
  constructor
  · intro hf a b ha e
    rw [← hk a (by rw [← e] at hw; exact hw.left) ha]; exact hf a b ha e
  · intro hf a b ha e
    rw [hk a (by rw [← e] at hw; exact hw.left) ha]; exact hf a b ha e

theorem keyHasValue_congr {m m' : KMap} {h : Heap} {x : Str} (e : valOf m' x = valOf m x) : keyHasValue m' h x = keyHasValue m h x := by
  rw [Bool.eq_iff_iff, keyHasValue_eq, keyHasValue_eq, e]

theorem Grow.val {m m' : KMap} {p : Str} (h : Grow m m' p) : valOf m' p = valOf m p := by
  rcases h with h | ⟨v, c, c', h1, h2⟩ | ⟨h1, c, h2⟩
  · simp [valOf, h]
  · simp [valOf, h1, h2]
  · simp [valOf, h1, h2]

theorem par_ne {P : List Str} (h : P ≠ []) : par P = nkey P := by simp [par, h]

theorem nkey_ne_root {P : List Str} (h : NamesWf P) : nkey P ≠ root := keyOf_ne_root h.path

/-- The entry of an array, with its path being built. -/
theorem TabX.arr {X : List Str → Prop} {m m' : KMap} {H : Heap} (h : TabX X m H) {P : List Str} (hX : X P) (hP : P ≠ []) (hw : NamesWf P)
    (hg : Grow m m' (nkey P)) (ho : ∀ Q, NamesWf Q → Q ≠ P → Q ≠ [] → m'.get? (nkey Q) = m.get? (nkey Q)) (hr : m'.get? root = m.get? root) :
    TabX X m' H := by
  have hop : ∀ Q, NamesWf Q → Q ≠ P → m'.get? (par Q) = m.get? (par Q) := by
    intro Q hQ hne
    by_cases hn : Q = []
    · subst hn; exact hr
    · rw [par_ne hn]; exact ho Q hQ hne hn
  have hv : ∀ a, NamesWf a → a ≠ [] → keyHasValue m' H (nkey a) = keyHasValue m H (nkey a) := by
    intro a ha hne
    apply keyHasValue_congr
    by_cases e : a = P
    · subst e; exact hg.val
    · simp [valOf, ho a ha e hne]
  have hf : ∀ {Q}, NamesWf Q → (Free m' H Q ↔ Free m H Q) := fun hQ => Free.congr hQ hv
  have hname : ∀ {Q k}, NamesWf Q → (hasName m' (par Q) k ↔ hasName m (par Q) k) := by
    intro Q k hQ
    by_cases e : Q = P
    · subst e
      rw [par_ne hP]
      unfold hasName
      rcases hg with g | ⟨v, c, c', h1, h2⟩ | ⟨h1, c, h2⟩
      · rw [g]
      · rw [h1, h2]; simp
      · rw [h1, h2]; simp
    · unfold hasName; rw [hop Q hQ e]
  have hsome : ∀ {Q}, NamesWf Q → Q ≠ [] → m.get? (nkey Q) ≠ none → m'.get? (nkey Q) ≠ none := by
    intro Q hQ hne hs
    by_cases e : Q = P
    · subst e
      rcases hg with g | ⟨v, c, c', h1, h2⟩ | ⟨h1, c, h2⟩
      · rwa [g]
      · rw [h2]; simp
      · rw [h2]; simp
    · rwa [ho Q hQ e hne]
  refine ⟨fun Q k hQ hf' hs hx => ?_, fun Q hQ hf' hx => ?_, fun Q k hQ hf' hn => ?_⟩
  · rw [hname hQ.left]
    refine h.up Q k hQ ((hf hQ.left).mp hf') ?_ hx
    rwa [← ho (Q ++ [k]) hQ (fun e => hx (e ▸ hX)) (by simp)]
  · have : Q ≠ P := fun e => hx (e ▸ hX)
    unfold keysK
    rw [hop Q hQ this]
    exact h.kind Q hQ ((hf hQ).mp hf') hx
  · obtain ⟨h1, h2⟩ := h.down Q k hQ ((hf hQ).mp hf') ((hname hQ).mp hn)
    exact ⟨h1, hsome (hQ.append fun x hx => by simp at hx; subst hx; exact h1) (by simp) h2⟩

theorem updateParent_str {m : KMap} {P k : Str} (hk : keysK m P) :
    ∃ v ks, (updateParent m P (.str k)).get? P = some ⟨v, .keys ks⟩ ∧
      ∀ x, x ∈ ks ↔ x = k ∨ hasName m P x := by
  unfold updateParent
  split
  next hv hg =>
    obtain ⟨v, c⟩ := hv
    obtain ⟨ks, e⟩ := hk _ hg
    dsimp only at e; subst e
    refine ⟨v, (insertUniq ks k).1, by simp [SMap.get?_insert], fun x => ?_⟩
    rw [mem_insertUniq]
    constructor
    · rintro (h | h)
      · exact .inr ⟨v, ks, hg, h⟩
      · exact .inl h
    · rintro (h | ⟨v', ks', g, h⟩)
      · exact .inr h
      · rw [hg] at g; simp at g; rw [g.2]; exact .inl h
  next hg =>
    refine ⟨none, [k], by simp [SMap.get?_insert], fun x => ?_⟩
    simp only [List.mem_singleton]
    constructor
    · exact .inl
    · rintro (h | ⟨v', ks', g, h⟩)
      · exact h
      · rw [hg] at g; simp at g

/-- Entering the value of a name below `P`. -/
theorem TabX.pair {X : List Str → Prop} {m : KMap} {h H : Heap} {P : List Str} {k : Str} {a : Addr}
    (ht : TabX (fun Q => X Q ∨ Q = P ++ [k]) m H) (hw : NamesWf (P ++ [k])) (hP : X P ∨ m.get? (par P) ≠ none)
    (hk : Free m H P → keysK m (par P)) (ha : H[a]? ≠ some .table) (hv : valOf m (nkey (P ++ [k])) = none) :
    TabX X (updateParent (putVal m h (nkey (P ++ [k])) a) (par P) (.str k)) H ∧
    (Free m H P → keysK (updateParent (putVal m h (nkey (P ++ [k])) a) (par P) (.str k)) (par P)) := by
  generalize hm1 : updateParent (putVal m h (nkey (P ++ [k])) a) (par P) (.str k) = m1
  have hpk : par P ≠ nkey (P ++ [k]) := by
    rw [← par_snoc]
    intro e
    have := par_inj hw.left hw e
    simp at this
  have hmono : Mono m m1 := hm1 ▸ (putVal_mono _ _ _ _).trans (updateParent_mono _ _ _)
  have hval : ∀ x, valOf m1 x = if nkey (P ++ [k]) = x then some a else valOf m x := by
    intro x; rw [← hm1, valOf_updateParent, valOf_putVal]
  have hother : ∀ x, x ≠ nkey (P ++ [k]) → x ≠ par P → m1.get? x = m.get? x := by
    intro x h1 h2
    rw [← hm1, get_updateParent_other (Ne.symm h2), get_putVal_other (Ne.symm h1)]
  have hfree : ∀ {Q}, Free m1 H Q → Free m H Q := by
    intro Q
    refine Free.anti fun x b hb => ?_
    rw [hval]; split
    next e => subst e; rw [hv] at hb; simp at hb
    · exact hb
  have hbad : ∀ {Q}, Free m1 H Q → Q ≠ P ++ [k] := by
    rintro Q hf rfl
    have := hf (P ++ [k]) [] (by simp) (by simp)
    have h2 : keyHasValue m1 H (nkey (P ++ [k])) = true := by
      rw [keyHasValue_eq]
      exact ⟨a, by rw [hval, if_pos rfl], ha⟩
    rw [h2] at this; simp at this
  have hput : (putVal m h (nkey (P ++ [k])) a).get? (par P) = m.get? (par P) := get_putVal_other (Ne.symm hpk)
  have hPentry : Free m H P → ∃ v ks, m1.get? (par P) = some ⟨v, .keys ks⟩ ∧ ∀ x, x ∈ ks ↔ x = k ∨ hasName m (par P) x := by
    intro hf
    have hkk : keysK (putVal m h (nkey (P ++ [k])) a) (par P) := by
      intro hv' e
      rw [hput] at e
      exact hk hf hv' e
    obtain ⟨v, ks, e1, e2⟩ := updateParent_str (k := k) hkk
    rw [hm1] at e1
    refine ⟨v, ks, e1, fun x => ?_⟩
    rw [e2]
    unfold hasName
    rw [hput]
  have hKsome : m1.get? (nkey (P ++ [k])) ≠ none := by
    intro e
    have := hval (nkey (P ++ [k]))
    simp [valOf, e] at this
  refine ⟨⟨fun Q k' hQ hf hs hx => ?_, fun Q hQ hf hx => ?_, fun Q k' hQ hf hn => ?_⟩, fun hf => ?_⟩
  · by_cases e : Q ++ [k'] = P ++ [k]
    · have he := List.append_inj' e rfl
      obtain ⟨rfl, e2⟩ := he
      simp at e2; subst e2
      obtain ⟨v, ks, e1, e2⟩ := hPentry (hfree hf)
      exact ⟨v, ks, e1, (e2 _).mpr (.inl rfl)⟩
    · refine hmono.hasName (ht.up Q k' hQ (hfree hf) ?_ (fun h => h.elim hx e))
      by_cases e2 : Q ++ [k'] = P
      · rcases hP with hXP | hp
        · exact absurd (e2 ▸ hXP) hx
        · rw [← e2, par_snoc] at hp; exact hp
      · rwa [hother] at hs
        · exact fun h => e (nkey_inj hQ hw h)
        · rw [← par_snoc]
          exact fun h => e2 (par_inj hQ hw.left h)
  · by_cases e : Q = P
    · subst e
      obtain ⟨v, ks, e1, _⟩ := hPentry (hfree hf)
      intro hv' e2
      rw [e1] at e2; simp at e2; subst e2; exact ⟨ks, rfl⟩
    · intro hv' e2
      rw [hother] at e2
      · exact ht.kind Q hQ (hfree hf) (fun h => h.elim hx (hbad hf)) hv' e2
      · rw [← par_snoc]; exact fun h => hbad hf (par_inj hQ hw h)
      · exact fun h => e (par_inj hQ hw.left h)
  · by_cases e : Q = P
    · subst e
      obtain ⟨v, ks, e1, e2⟩ := hPentry (hfree hf)
      obtain ⟨v', ks', g1, g2⟩ := hn
      rw [e1] at g1; simp at g1
      rw [← g1.2, e2] at g2
      rcases g2 with rfl | g2
      · exact ⟨hw _ (by simp), hKsome⟩
      · obtain ⟨d1, d2⟩ := ht.down Q k' hQ (hfree hf) g2
        exact ⟨d1, hmono.some _ d2⟩
    · have : hasName m (par Q) k' := by
        unfold hasName at hn ⊢
        rwa [hother] at hn
        · rw [← par_snoc]; exact fun h => hbad hf (par_inj hQ hw h)
        · exact fun h => e (par_inj hQ hw.left h)
      obtain ⟨d1, d2⟩ := ht.down Q k' hQ (hfree hf) this
      exact ⟨d1, hmono.some _ d2⟩
  · obtain ⟨v, ks, e1, _⟩ := hPentry hf
    intro hv' e2
    rw [e1] at e2; simp at e2; subst e2; exact ⟨ks, rfl⟩

/-- When the key is there already. -/
theorem TabX.dup {X : List Str → Prop} {m : KMap} {H : Heap} {P : List Str} {k : Str}
    (ht : TabX (fun Q => X Q ∨ Q = P ++ [k]) m H)
    (hC : Free m H (P ++ [k]) → keysK m (nkey (P ++ [k]))) (hU : Free m H P → hasName m (par P) k) : TabX X m H := by
  refine ⟨fun Q k' hQ hf hs hx => ?_, fun Q hQ hf hx => ?_, ht.down⟩
  · by_cases e : Q ++ [k'] = P ++ [k]
    · have he := List.append_inj' e rfl
      obtain ⟨rfl, e2⟩ := he
      simp at e2; subst e2
      exact hU hf
    · exact ht.up Q k' hQ hf hs (fun h => h.elim hx e)
  · by_cases e : Q = P ++ [k]
    · subst e; rw [par_snoc]; exact hC hf
    · exact ht.kind Q hQ hf (fun h => h.elim hx e)

theorem names_append (a b : List Str) : names (a ++ b) = names a ++ names b := by simp [names]

theorem parP_names (P : List Str) : parP (names P) = par P := by
  simp [parP, par, names, nkey]

/-- Reading the value of a name below `P` and entering it: what is known before carries over. -/
theorem keyvalAct_tab {X : List Str → Prop} {T ps : List Str} {m0 : KMap} {H : Heap} {k : Str} {a : Addr} {st1 st2 : PState} (hc : Ctx T st1)
    (hw : NamesWf (T ++ ps ++ [k])) (hkc : st1.keychain = names ps ++ [.str k])
    (h : keyvalAct k a st1 = .ok st2) (hX : ¬ X (T ++ ps ++ [k])) (hP : X (T ++ ps) ∨ st1.map.get? (par (T ++ ps)) ≠ none)
    (ht : TabX (fun Q => X Q ∨ Q = T ++ ps ++ [k]) st1.map H) (ht0 : TabX X m0 H)
    (hk0 : Free m0 H (T ++ ps) → keysK m0 (par (T ++ ps)))
    (hmono : Mono m0 st1.map) (hval : ∀ x b, valOf m0 x = some b → valOf st1.map x = some b)
    (hself : valOf st1.map (nkey (T ++ ps ++ [k])) = valOf m0 (nkey (T ++ ps ++ [k])))
    (hpar : st1.map.get? (par (T ++ ps)) = m0.get? (par (T ++ ps))) (ha : H[a]? ≠ some .table) :
    TabX X st2.map H ∧ (Free st2.map H (T ++ ps) → keysK st2.map (par (T ++ ps))) := by
  have hf0 : ∀ {Q}, Free st1.map H Q → Free m0 H Q := Free.anti hval
  have hk1 : Free st1.map H (T ++ ps) → keysK st1.map (par (T ++ ps)) := by
    intro hf
    have := hk0 (hf0 hf)
    unfold keysK at this ⊢
    rwa [hpar]
  simp only [keyvalAct, Out.bind_eq, Out.bind_ok] at h
  obtain ⟨s, h1, h⟩ := h
  have he : ¬ st1.arrayError = true := by rw [hc.2.1]; simp
  rw [if_neg he] at h1
  simp at h; subst h
  show TabX X s.map H ∧ (Free s.map H (T ++ ps) → keysK s.map (par (T ++ ps)))
  have hpsw : NamesWf (ps ++ [k]) := by rw [List.append_assoc] at hw; exact hw.right
  have hkc' : st1.keychain = names (ps ++ [k]) := by rw [hkc]; simp [names]
  have hne : st1.keychain ≠ [] := by rw [hkc]; simp
  have hlast : st1.keychain.getLast hne = .str k := by
    have : st1.keychain.getLast? = some (.str k) := by rw [hkc]; simp
    rw [List.getLast?_eq_some_getLast hne] at this
    simpa using this
  have hfull : names T ++ st1.keychain = names (T ++ ps ++ [k]) := by rw [hkc]; simp [names]
  have hdl : names T ++ st1.keychain.dropLast = names (T ++ ps) := by rw [hkc]; simp [names]
  rcases insertKeyval_ctx hc (by rw [hkc']; exact hpsw.path) hne h1 with ⟨v1, rfl⟩ | ⟨v1, v, _, rfl⟩
  · rw [hfull] at v1
    rw [hfull, hdl, hlast, parP_names]
    obtain ⟨t1, t2⟩ := ht.pair (h := st1.heap) hw hP hk1 ha v1
    refine ⟨t1, fun hf => t2 (hf.anti fun x b hb => ?_)⟩
    dsimp only
    rw [valOf_updateParent, valOf_putVal]
    split
    next e => rw [← e, v1] at hb; simp at hb
    · exact hb
  · rw [hfull, hself] at v1
    have hsome : m0.get? (nkey (T ++ ps ++ [k])) ≠ none := fun e => v1 (by rw [valOf, e]; rfl)
    refine ⟨ht.dup (fun hf => ?_) (fun hf => ?_), hk1⟩
    · have hkk := ht0.kind _ hw (hf0 hf) hX
      obtain ⟨hv, e⟩ := Option.ne_none_iff_exists'.mp hsome
      rw [par_snoc] at hkk
      obtain ⟨ks, e2⟩ := hkk hv e
      obtain ⟨v', c'⟩ := hv
      dsimp only at e2; subst e2
      obtain ⟨v2, ks2, e3, _⟩ := hmono.keys _ _ _ e
      intro hv' e4
      rw [e3] at e4; simp at e4; subst e4; exact ⟨ks2, rfl⟩
    · exact hmono.hasName (ht0.up _ k hw (hf0 hf) hsome hX)

theorem KeyWf.append_ne_root {k s : Str} (h : KeyWf k) : k ++ s ≠ root := by
  intro e
  rcases h with ⟨hn, hb⟩ | hq
  · cases k with
    | nil => exact hn rfl
    | cons c k =>
      have := hb c (by simp)
      simp [root] at e
      rw [e.1] at this
      revert this; decide
  · obtain ⟨b, rfl, _⟩ := quotedKey_unq hq []
    simp [root] at e

/-- Within a longer path, nothing changes at a list of names. -/
theorem Within.par {P : List Str} {k : Str} {q : List Key} {m m' : KMap} (h : Within (names (P ++ [k]) ++ q) m m') (hw : NamesWf P) (hk : KeyWf k) :
    m'.get? (par P) = m.get? (par P) := by
  refine h _ fun r _ e => ?_
  by_cases hP : P = []
  · subst hP
    rw [show Tomllib.par [] = root from rfl] at e
    -- every key starts like a name
    rw [names_append, List.append_assoc, List.append_assoc] at e
    have hh : keyOf [] (names [] ++ (names [k] ++ (q ++ r))) = keyOf [] (.str k :: (q ++ r)) := by simp [names]
    rw [hh, keyOf_nil_cons hk.ne] at e
    exact hk.append_ne_root e.symm
  · rw [par_ne hP, names_append, List.append_assoc, List.append_assoc] at e
    exact keyOf_not_below hw.path (by simpa [names] using hP) (by simp [names]) e

mutual
theorem VT.eff_tab : ∀ (t : VT) {X : List Str → Prop} {T ps : List Str} {st st' : PState} {H l : Heap}, Ctx T st → Inv st → st.keychain = names ps → ps ≠ [] →
    NamesWf (T ++ ps) → t.wf → X (T ++ ps) → (∀ q, q ≠ [] → ¬ X (T ++ ps ++ q)) → (Free st.map H (T ++ ps) → keysK st.map (par (T ++ ps))) →
    TabX X st.map H → t.eff st = .ok st' → H = st'.heap ++ l → TabX X st'.map H
  | .leaf s, X, T, ps, st, st', H, l, hc, hi, hkc, hne, hnw, hw, hX, hXb, hk, ht, h, hH => by
    rw [VT.eff, Out.bind_ok] at h
    obtain ⟨st1, h1, h⟩ := h
    simp at h; subst h
    have hm : (st1.cell s.cell).map = st.map := (show _ = st1.map from rfl).trans (Scalar.eff_map h1)
    rw [hm]; exact ht
  | .arr es c1 c2, X, T, ps, st, st', H, l, hc, hi, hkc, hne, hnw, hw, hX, hXb, hk, ht, h, hH => by
    rw [VT.eff, Out.bind_ok] at h
    obtain ⟨st1, h1, h⟩ := h
    simp at h; subst h
    rw [VT.wf] at hw
    obtain ⟨g1, g2⟩ := Elems.eff_grow es (T := T) (st := st.openArr) (kc := st.keychain) (i := 0) (hc.congr rfl rfl rfl rfl)
      (by rw [hkc]; exact hnw.right.path) (by rw [hkc]; simpa [names] using hne) rfl hw.2.1 h1
    rw [hkc, ← names_append] at g1 g2
    show TabX X st1.map H
    refine ht.arr hX (by simp [hne]) hnw g1 (fun Q hQ hQne hQn => g2 _ (fun e => hQne (nkey_inj hQ hnw e)) fun j q hq e => ?_) (g2 _ (Ne.symm (nkey_ne_root hnw)) fun j q hq e => ?_)
    · have := keyOf_inj hQ.path (hnw.path.append (by simp [names, hne]) (q := .idx j :: q) (fun s hs => hq s (by simpa using hs))) e
      have hm : Key.idx j ∈ names Q := by rw [this]; simp
      simp [names] at hm
    · exact keyOf_ne_root (hnw.path.append (by simp [names, hne]) (q := .idx j :: q) (fun s hs => hq s (by simpa using hs))) e.symm
  | .itab kvs ws, X, T, ps, st, st', H, l, hc, hi, hkc, hne, hnw, hw, hX, hXb, hk, ht, h, hH => by
    rw [VT.eff, Out.bind_ok] at h
    obtain ⟨st1, h1, h⟩ := h
    simp at h; subst h
    rw [VT.wf] at hw
    exact (Pairs.eff_tab kvs hc hi hkc hne hnw hw.2 hX hXb hk ht h1 (l := .itab (kvs.tkvs st.heap.length) ws :: l) (by simpa [PState.cell] using hH)).1
theorem Pairs.eff_tab : ∀ (t : Pairs) {X : List Str → Prop} {T ps : List Str} {st st' : PState} {H l : Heap}, Ctx T st → Inv st → st.keychain = names ps → ps ≠ [] →
    NamesWf (T ++ ps) → t.wf → X (T ++ ps) → (∀ q, q ≠ [] → ¬ X (T ++ ps ++ q)) → (Free st.map H (T ++ ps) → keysK st.map (par (T ++ ps))) →
    TabX X st.map H → t.eff st = .ok st' → H = st'.heap ++ l → TabX X st'.map H ∧ (Free st'.map H (T ++ ps) → keysK st'.map (par (T ++ ps)))
  | .nil, X, T, ps, st, st', H, l, hc, hi, hkc, hne, hnw, hw, hX, hXb, hk, ht, h, hH => by
    simp [Pairs.eff] at h; subst h
    exact ⟨ht, hk⟩
  | .cons k ws v sep cn r, X, T, ps, st, st', H, l, hc, hi, hkc, hne, hnw, hw, hX, hXb, hk, ht, h, hH => by
    rw [Pairs.eff, Out.bind_ok] at h
    obtain ⟨st1, h1, h⟩ := h
    rw [Out.bind_ok] at h
    obtain ⟨st2, h2, h⟩ := h
    rw [Pairs.wf] at hw
    have hcp : Ctx T (st.pushK k) := hc.congr rfl rfl rfl rfl
    have hpk : (st.pushK k).keychain = names (ps ++ [k]) := by simp [PState.pushK, hkc, names]
    have hkw : NamesWf [k] := fun x hx => by simp at hx; subst hx; exact hw.1
    have hnw' : NamesWf (T ++ (ps ++ [k])) := by rw [← List.append_assoc]; exact hnw.append hkw
    have e1 := VT.eff_heap _ _ _ h1
    have e2 := keyvalAct_heap h2
    have e3 := Pairs.eff_heap _ _ _ h
    have f1 := VT.eff_frame h1
    have hc1 := hcp.frame f1
    have hc2 : Ctx T st2 := by
      have f2 := (keyvalAct_frame h2).2
      exact hc1.congr f2.lastTable f2.tables f2.index f2.err
    have hX' : ¬ X (T ++ ps ++ [k]) := hXb [k] (by simp)
    have all1 := v.eff_all (hi.pushK k)
    rw [h1] at all1
    obtain ⟨i1, t1⟩ := all1
    have i2 := keyvalAct_all (k := k) i1 t1
    rw [h2] at i2
    have htab1 : TabX (fun Q => X Q ∨ Q = T ++ ps ++ [k]) st1.map H := by
      refine VT.eff_tab v (X := fun Q => X Q ∨ Q = T ++ ps ++ [k]) hcp (hi.pushK k) hpk (by simp) hnw' hw.2.2.1 (by simp) (fun q hq => ?_) (fun hf => ?_)
        (ht.weaken fun Q h => .inl h) h1 (H := H) (l := r.cells st2.heap.length ++ l) (by rw [hH, e3, e2]; simp)
      · rintro (g | g)
        · refine hXb ([k] ++ q) (by simp) ?_
          simpa using g
        · simp at g; exact hq g
      · exact ht.kind _ hnw' hf (by rw [← List.append_assoc]; exact hX')
    have hpw : PathWf (st.pushK k).keychain := by rw [hpk]; exact hnw'.right.path
    have hne1 : (st.pushK k).keychain ≠ [] := by simp [PState.pushK]
    obtain ⟨a1, a2⟩ := v.eff_val hcp hpw hne1 hw.2.2.1 h1
    have hself := VT.eff_val_self hcp hpw hne1 hw.2.2.1 h1
    have hfull : names T ++ (st.pushK k).keychain = names (T ++ ps ++ [k]) := by rw [hpk, ← names_append, List.append_assoc]
    rw [hfull] at a2 hself
    have key := keyvalAct_tab (X := X) (ps := ps) (m0 := st.map) (H := H) hc1 (by rw [List.append_assoc]; exact hnw')
      (by rw [f1.keychain, hpk, names_append]; rfl) h2 hX' (.inl hX) htab1 ht hk (show Mono (st.pushK k).map st1.map from v.eff_mono h1)
      (fun x b hb => by rw [a1 x]; show (valOf st.map x).or _ = _; rw [hb]; rfl) hself
      (Within.par (m := st.map) (q := []) (by rw [List.append_nil]; exact a2) hnw hw.1) (by
        have hpos : 0 < st1.heap.length := List.length_pos_iff.mpr t1.pos
        rw [hH, e3, e2, List.append_assoc, List.getElem?_append_left (by omega)]
        exact t1.val)
    have hk2 : st2.keychain = names ps := by
      rw [(keyvalAct_frame h2).1, f1.keychain, hpk]
      simp [names]
    exact Pairs.eff_tab r hc2 i2 hk2 hne hnw hw.2.2.2.2.2 hX hXb key.2 key.1 h hH
end

end Tomllib
