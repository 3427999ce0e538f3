import Verif.Lemmas.Clean
import Verif.Lemmas.Simulate
/-!
# Lines that are not in order are reported
-/

namespace Tomllib

theorem stdKeyInner_valid (m : KMap) (h : Heap) : ∀ (ks : List Str) (b : List Key) (valid : Bool) (pk : Str), PathWf (b ++ names ks) → ks ≠ [] →
    (stdKeyInner m h ks (dotP b) valid pk).2.1 = true → valid = true ∧ ∀ x y, x ≠ [] → y ≠ [] → x ++ y = ks → keyHasValue m h (keyOf [] (b ++ names x)) = false
  | [], _, _, _, _, hne, _ => absurd rfl hne
  | [k], b, valid, pk, hw, _, hv => by
    refine ⟨by simpa [stdKeyInner] using hv, fun x y hx hy e => ?_⟩
    cases x with
    | nil => exact absurd rfl hx
    | cons k' x =>
      simp at e
      exact absurd e.2.2 hy
  | k :: k' :: ks, b, valid, pk, hw, _, hv => by
    have hw' : PathWf ((b ++ [.str k]) ++ names (k' :: ks)) := by simpa [names] using hw
    have hkr : k ≠ root := (hw'.left.names k (by simp)).ne_root
    have hne : b ++ [Key.str k] ≠ [] := by simp
    rw [stdKeyInner, if_neg hkr, dotP_add hw.left] at hv
    dsimp only at hv
    have hdot : keyOf [] (b ++ [.str k]) ++ lit% "." = dotP (b ++ [.str k]) := by rw [dotP, if_neg hne]
    rw [hdot] at hv
    obtain ⟨h1, h2⟩ := stdKeyInner_valid m h (k' :: ks) (b ++ [.str k]) _ _ hw' (by simp) hv
    simp only [Bool.and_eq_true, Bool.not_eq_true'] at h1
    refine ⟨h1.1, fun x y hx hy e => ?_⟩
    cases x with
    | nil => exact absurd rfl hx
    | cons k2 x =>
      simp at e
      obtain ⟨rfl, e⟩ := e
      by_cases hx' : x = []
      · subst hx'; exact h1.2
      · have := h2 x y hx' hy e
        simpa [names] using this

/-- A table is valid only if there are no values on the way. -/
theorem TChain.std_valid {m : KMap} (h : Heap) {ts : List TableType} {is : List Nat} {A : List Str} {b : List Key} (hc : TChain (KP m) ts is A b) {t : Table} {ks : List Str}
    (hw : (TableType.std t).wf) (hn : t.names = A ++ ks) (hne : ks ≠ []) {rts : List TableType} {i : Nat} {x : Str × Str}
    (hg : getArrayTableKey m h (ts ++ .std t :: rts) (is ++ [i]) = .ok (true, x)) :
    ∀ x y, x ≠ [] → x ++ y = ks → keyHasValue m h (keyOf [] (b ++ names x)) = false := by
  have hN : NamesWf t.names := Table.namesWf hw.2
  have hwk : PathWf (b ++ names ks) := hc.wf.2.1.append' (NamesWf.path (by rw [hn] at hN; exact hN.right))
  obtain ⟨v, e1, e2⟩ := stdKeyInner_path m h ks b true root hwk hne
  have hs : stdKeyInner m h ((lastKeys t).drop (pe A)) (dotP b) true root = stdKeyInner m h ks (dotP b) true root := by
    rw [drop_pe hn]
    split
    · cases ks with
      | nil => exact absurd rfl hne
      | cons k ks => rw [stdKeyInner, if_pos rfl]
    · rfl
  rw [getArrayTableKey, hc.loop _ _ (by simp), arrayTableKeyLoop, hs, e1] at hg
  dsimp only at hg
  rw [arr_full hn hwk hne, arrayTableKeyLoop] at hg
  simp only [Out.ok.injEq, Prod.mk.injEq, Bool.and_eq_true, Bool.not_eq_true'] at hg
  intro x y hx e
  by_cases hy : y = []
  · subst hy
    rw [List.append_nil] at e
    rw [e]; exact hg.1.2
  · exact (stdKeyInner_valid m h ks b true root hwk hne (by rw [e1]; exact hg.1.1)).2 x y hx hy e

/-- The loop over the names of a header stops at a value. -/
theorem implicitLoop_stop : ∀ (x y : List Str) (m : KMap) (b : List Key) (first : Bool) {a : Option Addr} {c : Nat}, y ≠ [] → PathWf (b ++ names x) →
    (∀ x' k z, x' ++ k :: z = x → ∃ v l, KP m (b ++ names x') = some ⟨v, .keys l⟩ ∧ k ∈ l) → KP m (b ++ names x) = some ⟨a, .count c⟩ →
    (x = [] → first = false) → implicitLoop (x ++ y) m (parP b) first = .panic .implicitStd
  | [], [], _, _, _, _, _, hy, _, _, _, _ => absurd rfl hy
  | [], k :: y, m, b, first, a, c, _, hw, _, hk, hf => by
    obtain rfl := hf rfl
    have hk' : m.get? (parP b) = some ⟨a, .count c⟩ := by simpa [names, KP] using hk
    rw [List.nil_append, implicitLoop, hk']
    rfl
  | k :: x, y, m, b, first, a, c, hy, hw, hb, hk, _ => by
    obtain ⟨v, l, e1, e2⟩ := hb [] k x rfl
    have e1' : m.get? (parP b) = some ⟨v, .keys l⟩ := by simpa [names, KP] using e1
    have hwb : PathWf b := hw.left
    have hins : insertUniq l k = (l, false) := by simp [insertUniq, e2]
    have hxy : x ++ y ≠ [] := by simp [hy]
    rw [List.cons_append, implicitLoop, e1']
    simp only [hins, if_neg hxy, Bool.false_eq_true, if_false]
    have hkey : (if parP b ≠ root then parP b ++ lit% "." ++ k else k) = parP (b ++ [.str k]) := by
      by_cases h0 : b = []
      · subst h0; simp [parP, keyOf, Key.add, dotted]
      · rw [parP_ne h0, if_pos (keyOf_ne_root hwb), parP_ne (by simp), ← dotP_add hwb, dotP, if_neg h0]
    rw [hkey]
    have hw' : PathWf (b ++ [.str k] ++ names x) := by simpa [names] using hw
    have hK : ∀ q, PathWf q → KP (m.insert (parP b) ⟨v, .keys l⟩) q = KP m q := by
      intro q hq
      rw [KP_insert hwb hq]
      split
      next e => subst e; exact e1'.symm
      · rfl
    refine implicitLoop_stop x y _ (b ++ [.str k]) false hy hw' (fun x' k' z e => ?_) (a := a) (c := c) ?_ (fun _ => rfl)
    · obtain ⟨v', l', g1, g2⟩ := hb (k :: x') k' z (by simp [e])
      refine ⟨v', l', ?_, g2⟩
      rw [hK]
      · simpa [names] using g1
      · rw [← e, names_append, ← List.append_assoc] at hw'
        exact hw'.left
    · rw [hK _ hw']
      simpa [names] using hk

namespace Sections

theorem Good.has {D : Sections} {m : KMap} {h : Heap} (g : D.Good (KP m) h) {p : List Key} (hp : PathWf p) (hne : p ≠ []) (hh : keyHasValue m h (keyOf [] p) = false) : D.valueAt p = none := by
  cases e : D.valueAt p with
  | none => rfl
  | some t =>
    obtain ⟨a, fp, e1, e2⟩ := (g.slot p hp).val t e
    unfold keyHasValue at hh
    rw [KP_ne hne, e1] at hh
    exact absurd (by simpa using hh) (Rep.notTable e2)

theorem Good.defined {D : Sections} {m : KMap} {h : Heap} (g : D.Good (KP m) h) {p : List Key} (hp : PathWf p) (hne : p ≠ []) (hh : tableDefined m h (keyOf [] p) = false) : p ∉ D.heads := by
  intro hm
  obtain ⟨v, l, e1, _, e3, _⟩ := (g.slot p hp).tab (.inr (.inl hm))
  obtain ⟨a, rfl, e4⟩ := e3 hm
  unfold tableDefined at hh
  rw [KP_ne hne, e1] at hh
  simp [e4] at hh

theorem Good.kids {D : Sections} {m : KMap} {h : Heap} (g : D.Good (KP m) h) {p : List Key} {k : Str} (hp : PathWf (p ++ [.str k])) (hc : D.count (p ++ [.str k]) = none)
    (hk : keyHasChildrenWithValues m h (keyOf [] (p ++ [.str k])) = .ok false) : ∀ e ∈ D.vals, e.1.dropLast ≠ p ++ [.str k] := by
  intro e he hd
  have hs := g.slot _ hp
  have hne : p ++ [Key.str k] ≠ [] := by simp
  have hsol := g.closed e.1 (.inl ⟨e, he, rfl⟩)
  have hne1 : e.1 ≠ [] := fun h0 => by
    rw [h0] at hd
    simp at hd
  have he1 : e.1 = p ++ [.str k] ++ [e.1.getLast hne1] := by rw [← hd, List.dropLast_concat_getLast]
  cases hx : e.1.getLast hne1 with
  | idx i =>
    rw [hx] at he1
    obtain ⟨n, hn, _⟩ := hsol.idx _ _ _ he1
    rw [hc] at hn
    simp at hn
  | str x =>
    rw [hx] at he1
    have hnm := hsol.str _ _ _ he1
    have hw := g.wf e.1 (.inl ⟨e, he, rfl⟩)
    obtain ⟨v, l, e1, e2, _⟩ := hs.tab (isTable_names hnm)
    unfold keyHasChildrenWithValues at hk
    rw [if_neg (keyOf_ne_root hp), KP_ne hne, e1] at hk
    simp only [Out.ok.injEq, List.any_eq_false] at hk
    unfold Lists at e2
    rw [if_neg hne] at e2
    have hxl : x ∈ l := by rw [e2]; exact mem_namesOf.mpr hnm
    have := hk x hxl
    rw [Bool.not_eq_true] at this
    have hkey : keyOf [] (p ++ [.str k]) ++ lit% "." ++ x = keyOf [] (p ++ [.str k] ++ [.str x]) := by
      rw [← dotP_add hp, dotP, if_neg hne]
    rw [hkey, ← he1] at this
    exact valueAt_val he (g.has hw hne1 this)

/-- A key/value pair that is read without an error is in order, unless it gives a value to an implied table or to an array of tables. -/
theorem Sim.kv_clean {D : Sections} {st st' : PState} (h : D.Sim st) {w1 : Str} {k : Str} {s : WSSep} {v : VT} {w2 : Str} {c : Option Str} (hk : KeyWf k) (hv : v.wf)
    (hr : (D.here, k) ∈ D.names → D.valueAt (D.here ++ [.str k]) ≠ none ∨ D.here ++ [.str k] ∈ D.heads)
    (he : (ET.kv w1 k s v w2 c).eff st = .ok st') (hn : st'.errors = []) : D.fits (.kv w1 k s v w2 c) := by
  have hat := h.at
  have hwb := hat.wf
  have hw1 : PathWf (D.here ++ [.str k]) := hwb.push hk
  have hat1 : At D.here (st.pushK k) := hat.congr rfl rfl rfl rfl (fun _ _ _ => rfl)
  have hkc1 : (st.pushK k).keychain = [.str k] := by simp [PState.pushK, h.kc]
  rw [ET.eff, Out.bind_ok] at he
  obtain ⟨st1, h1, he⟩ := he
  obtain ⟨a1, a2, a3, a4, a5⟩ := VT.eff_clean v hat1 (by rw [hkc1]; exact PathWf.push (kc := []) trivial hk) (by rw [hkc1]; simp) hv h1
  obtain ⟨b1, b2, b3, b4, b5, b6⟩ := keyvalAct_stays (kc := []) a1 trivial hk (by rw [a3, hkc1]; rfl) he
  refine ⟨fun hm => ?_, a5 ((keyvalAct_adds he).clean hn)⟩
  refine b6 hn (a2.value _ (by simpa using hw1) ?_)
  rw [List.append_nil]
  show Valued (KP st.map _)
  rcases hr hm with hx | hx
  · cases e : D.valueAt (D.here ++ [.str k]) with
    | none => exact absurd e hx
    | some t =>
      obtain ⟨a, fp, e1, _⟩ := (h.good.slot _ hw1).val t e
      exact ⟨a, _, e1⟩
  · obtain ⟨v, l, e1, _, e3, _⟩ := (h.good.slot _ hw1).tab (.inr (.inl hx))
    obtain ⟨a, rfl, _⟩ := e3 hx
    exact ⟨a, _, e1⟩

theorem path_up (D : Sections) : ∀ (ks : List Str) (p : List Key), p <+: D.path p ks
  | [], p => List.prefix_refl _
  | k :: ks, p => by
    rw [path]
    refine List.IsPrefix.trans ?_ (path_up D ks _)
    unfold enter
    split
    · rw [List.append_assoc]; exact List.prefix_append _ _
    · exact List.prefix_append _ _

theorem target_path (D : Sections) {a : List Str} (ha : a ≠ []) : D.target a <+: D.path [] a := by
  unfold target
  conv => rhs; rw [← List.dropLast_concat_getLast ha, path_append]
  rw [path, path, List.getLastD_eq_getLast?, List.getLast?_eq_some_getLast ha]
  unfold enter
  split
  · exact List.prefix_append _ _
  · exact List.prefix_refl _

/-- There are no values above the element of an open array of tables. -/
theorem Open.free {D : Sections} {K : List Key → Option HashValue} {h : Heap} (g : D.Good K h) {cts : List TableType} {cis : List Nat} {A : List Str} {b : List Key} (hO : D.Open cts cis A b)
    {a : List Str} (ha : a ≠ []) (hp : a <+: A) : D.valueAt (D.target a) = none := by
  obtain ⟨h1, h2⟩ := hO.elem g
  have hb := (g.slot b hO.wf.2.1).val_tab h1
  have hnv := g.noVal h2 hb
  rw [valueAt_none]
  intro e he hpre
  refine absurd (hpre.trans ((D.target_path ha).trans ?_)) (hnv e he)
  obtain ⟨y, rfl⟩ := hp
  rw [← (hO.path g).1, path_append]
  exact D.path_up y _

theorem Good.someKids {D : Sections} {m : KMap} {h : Heap} (g : D.Good (KP m) h) {p : List Key} {k : Str} (hp : PathWf (p ++ [.str k])) (hv : D.valueAt (p ++ [.str k]) = none)
    (hc : D.count (p ++ [.str k]) = none) : ∃ b, keyHasChildrenWithValues m h (keyOf [] (p ++ [.str k])) = .ok b := by
  have hs := g.slot _ hp
  have hne : p ++ [Key.str k] ≠ [] := by simp
  unfold keyHasChildrenWithValues
  rw [if_neg (keyOf_ne_root hp), KP_ne hne]
  by_cases ht : D.isTable (p ++ [.str k])
  · obtain ⟨v, l, e1, e2, _⟩ := hs.tab ht
    rw [e1]
    exact ⟨_, rfl⟩
  · rw [hs.none hv hc ht]
    exact ⟨_, rfl⟩

/-- The key which is reported when the header of a table has the name of the innermost open array of tables. -/
theorem TChain.stdSame {m : KMap} (h : Heap) {ts : List TableType} {is : List Nat} {t : Table} {b : List Key} (hc : TChain (KP m) ts is t.names b) (hne : t.names ≠ []) :
    ∃ v pk, getArrayTableKey m h (ts ++ [.std t]) (is ++ [0]) = .ok (v, keyOf [] (b ++ [.str (t.names.getLastD [])]), pk) := by
  rw [getArrayTableKey, hc.loop _ _ (by simp), arrayTableKeyLoop, drop_pe (ks := []) (by simp), if_neg hne]
  simp only [stdKeyInner, arrayTableKeyLoop]
  have hl : (lastKeys t).getLastD [] = t.names.getLastD [] := by
    show (root :: t.names).getLastD [] = _
    rw [List.getLastD_cons, List.getLastD_eq_getLast?, List.getLastD_eq_getLast?, List.getLast?_eq_some_getLast hne]
    rfl
  rw [hl, dotP_add hc.wf.2.1]
  exact ⟨_, _, rfl⟩

/-- A header with the name of an open array of tables leads to that array. -/
theorem stdPop_open {D : Sections} {K : List Key → Option HashValue} {h : Heap} (g : D.Good K h) {st : PState} {t : Table} (ht : (TableType.std t).wf) {cts : List TableType} {cis : List Nat} {A : List Str} {b here : List Key}
    (hO : D.Open cts cis A b) (hT : Tops st cts cis A b here) (hop : D.opened = cts.map (·.table.names)) (hap : D.apart t.names) (hin : t.names ∈ D.opened) (hh : here ≠ D.path [] t.names) :
    ∃ cts' cis' b' rest, stdPop (.std t) st.lastArrayTables st.lastArrayTablesIndex = (cts', cis') ∧ D.Open cts' cis' t.names b' ∧ cts = cts' ++ rest ∧
      (D.opened.filter fun P => P.isPrefixOf t.names) = cts'.map (·.table.names) ∧ sameTop (.std t) cts' = true := by
  have hmem : ∀ u ∈ cts, u.table.names ∈ D.opened := fun u hu => by rw [hop]; exact List.mem_map_of_mem hu
  have hN : NamesWf t.names := Table.namesWf ht.2
  have hwr : ∀ u ∈ cts, NamesWf u.table.names := fun u hu => (hO.counted g u hu).2.2.2
  have hin' := hin
  rw [hop, List.mem_map] at hin'
  obtain ⟨u, hu, hun⟩ := hin'
  have hNA : t.names <+: A := by rw [← hun]; exact (hO.counted g u hu).2.1
  have key : ∃ cts' cis' b' rest, (if sameTop (.std t) cts then (cts, cis) else popLoop (fun top => (TableType.std t).isSubtableOf top) cts.length cts cis) = (cts', cis') ∧
      D.Open cts' cis' t.names b' ∧ cts = cts' ++ rest ∧
      (D.opened.filter fun P => P.isPrefixOf t.names) = cts'.map (·.table.names) ∧ sameTop (.std t) cts' = true := by
    by_cases hs : sameTop (.std t) cts = true
    · rw [if_pos hs]
      have hne : cts ≠ [] := List.ne_nil_of_mem hu
      have hw := List.getLast?_eq_some_getLast hne
      obtain ⟨w, hw1, hw2, _⟩ := hO.last _ hw
      have hwm : cts.getLast hne ∈ cts := by simp
      have hs' := hs
      unfold sameTop at hs'
      rw [hw] at hs'
      have he := keyStr_inj (t := .std t) (u := cts.getLast hne) hN (hwr _ hwm) (by simpa using hs')
      have hA : A = t.names := by
        rw [← hw2]
        rw [hw1] at he
        exact he.symm
      have hkeep := hO.keep (cts := cts) (rest := []) (t := .std t) g ht hop hap (by simp) (by simp) hwr (fun u hu => by
        rw [hw] at hu
        cases hu
        exact (isSub_iff (t := .std t) hN (hwr _ hwm) (hmem _ hwm) hap).mpr (by rw [← he]; exact List.prefix_refl _))
      exact ⟨cts, cis, b, [], rfl, by rw [← hA]; exact hO, by simp, hkeep.1, hs⟩
    · rw [if_neg hs]
      obtain ⟨cts', cis', A', b', rest, p1, hO', p3, p4, p5, _⟩ := hO.pop (fun top => (TableType.std t).isSubtableOf top)
      have hu' : u ∈ cts' := by
        rw [p3, List.mem_append] at hu
        refine hu.resolve_right fun hr => ?_
        have h1 := p4 u hr
        have h2 := (isSub_iff (t := .std t) (u := u) hN (hwr u (by rw [p3]; simp [hr])) (hmem u (by rw [p3]; simp [hr])) hap).mpr (by rw [hun]; exact List.prefix_refl _)
        rw [h2] at h1
        simp at h1
      have hne : cts' ≠ [] := List.ne_nil_of_mem hu'
      have hw := List.getLast?_eq_some_getLast hne
      obtain ⟨w, hw1, hw2, _⟩ := hO'.last _ hw
      have hwm : cts'.getLast hne ∈ cts := by rw [p3]; simp
      have hpre := (isSub_iff (t := .std t) (u := cts'.getLast hne) hN (hwr _ hwm) (hmem _ hwm) hap).mp (p5 _ hw)
      have hpre2 := (hO'.counted g u hu').2.1
      rw [hun, ← hw2] at hpre2
      rw [hw1] at hpre
      have : w.names = t.names := List.IsPrefix.eq_of_length hpre (Nat.le_antisymm hpre.length_le hpre2.length_le)
      refine ⟨cts', cis', b', rest, p1, by rw [← this, hw2]; exact hO', p3, (hO'.keep (t := .std t) g ht hop hap p3 p4 hwr p5).1, ?_⟩
      unfold sameTop
      rw [hw, hw1]
      simp only [decide_eq_true_eq]
      exact keyStr_congr this.symm
  rcases hT.top with ⟨t0, ks0, _, _, _, h1, h2, _⟩ | ⟨h1, h2, h3, _⟩
  · rw [h1, h2, stdPop]
    have : isTopStd (cts ++ [.std t0]) = true := by simp [isTopStd]
    simp only [this, Bool.true_or, if_true, List.dropLast_concat]
    exact key
  · rw [h1, h2, stdPop]
    have : isTopStd cts = false := by
      unfold isTopStd
      cases e : cts.getLast? with
      | none => rfl
      | some u =>
        obtain ⟨u', rfl, _⟩ := hO.last u e
        rfl
    simp only [this, Bool.false_or]
    have he : equalKeyLength (.std t) cts = false := by
      unfold equalKeyLength
      cases e : cts.getLast? with
      | none => rfl
      | some w =>
        obtain ⟨w', rfl, hw2, _⟩ := hO.last w e
        simp only [decide_eq_false_iff_not]
        intro hl
        have hl' : t.names.length = w'.names.length := by
          have h1 : (TableType.std t).table.keys.length = (TableType.arr w').table.keys.length := hl
          simpa [Table.names, TableType.table] using h1
        rw [← hw2] at hNA
        have := hNA.eq_of_length hl'
        rw [this, hw2] at hh
        exact hh (by rw [h3, (hO.path g).1])
    rw [he]
    exact key

/-- What the checks say about the header of a table. -/
theorem SimE.std_check {D : Sections} {st : PState} {E : List ParseError} (h : D.SimE E st) {w1 w2 : Str} {t : Table} {c : Option Str} (hw : (TableType.std t).wf)
    (f4 : D.apart t.names) (f5 : D.clear t.names) (hcnt : ∀ a ∈ onWay t.names, D.count (D.target a) ≠ none → a ∈ D.opened) (hhere : t.names ∈ D.opened → D.here ≠ D.path [] t.names) :
    ∃ cts cis A b er fk pk v pk', stdPop (.std t) st.lastArrayTables st.lastArrayTablesIndex = (cts, cis) ∧ D.Open cts cis A b ∧
      (D.opened.filter fun P => P.isPrefixOf t.names) = cts.map (·.table.names) ∧
      stdCheck st.map st.heap (.std t) cts cis = .ok (er, fk, pk) ∧ (er = false → D.fits (.table w1 (.std t) w2 c)) ∧
      getArrayTableKey st.map st.heap (cts ++ [.std t]) (cis ++ [0]) = .ok (v, keyOf [] (D.badKey t.names), pk') := by
  obtain ⟨cts0, cis0, A0, b0, hO0, hT0, hop⟩ := h.stack
  have hN := wf_names hw
  have g := h.good
  have hwr : ∀ u ∈ cts0, NamesWf u.table.names := fun u hu => (hO0.counted g u hu).2.2.2
  by_cases hin : t.names ∈ D.opened
  · obtain ⟨cts, cis, b, rest, q1, q2, q3, q4, q5⟩ := stdPop_open g hw hO0 hT0 hop f4 hin (hhere hin)
    obtain ⟨v, pk', e⟩ := TChain.stdSame st.heap (q2.chain g) hN.1
    refine ⟨cts, cis, t.names, b, true, [], root, v, pk', q1, q2, q4, ?_, by simp, ?_⟩
    · unfold stdCheck
      rw [if_pos q5]
    · rw [e, badKey, if_pos hin, (q2.path g).1]
  have hnot := hin
  have hpop := stdPop_eq g hw hO0 hT0 hop f4 hnot
  obtain ⟨cts, cis, A, b, rest, p1, hO, p3, p4, p5, _⟩ := hO0.pop (fun top => (TableType.std t).isSubtableOf top)
  rw [p1] at hpop
  obtain ⟨hfil, ks, hks⟩ := hO.keep g hw hop f4 p3 p4 hwr p5
  have hks' : t.names = A ++ ks := hks.symm
  have hsub : ∀ u ∈ cts, u.table.names ∈ D.opened := fun u hu => by rw [hop, p3]; exact List.mem_map_of_mem (by simp [hu])
  have hAin : A ≠ [] → A ∈ D.opened := by
    intro hA
    have hts : cts ≠ [] := fun h => hA (hO.wf.2.2.2.mpr h)
    have hu := List.getLast?_eq_some_getLast hts
    obtain ⟨u', hu1, hu2, _⟩ := hO.last _ hu
    have := hsub _ (List.getLast_mem hts)
    rw [hu1] at this
    rw [← hu2]; exact this
  have hne : ks ≠ [] := by
    rintro rfl
    rw [List.append_nil] at hks'
    exact hnot (by rw [hks']; exact hAin (by rw [← hks']; exact hN.1))
  have hAN : A ≠ t.names := by rw [hks']; simp [hne]
  have hnopen : ∀ x y, x ≠ [] → x ++ y = ks → A ++ x ∉ D.opened := by
    intro x y hx e hm
    have : A ++ x ∈ D.opened.filter fun P => P.isPrefixOf t.names := by
      rw [List.mem_filter, List.isPrefixOf_iff_prefix]
      exact ⟨hm, y, by rw [List.append_assoc, e, hks']⟩
    have h' : A ++ x ∈ cts.map (·.table.names) := by rw [← hfil]; exact this
    rw [List.mem_map] at h'
    obtain ⟨u, hu, e'⟩ := h'
    have := (hO.counted g u hu).2.1.length_le
    rw [e'] at this
    simp at this
    have := List.length_pos_iff.mpr hx
    omega
  have hon : ∀ x y, x ≠ [] → x ++ y = ks → D.count (D.target (A ++ x)) = none := by
    intro x y hx e
    cases hc : D.count (D.target (A ++ x)) with
    | none => rfl
    | some n => exact absurd (hcnt (A ++ x) (mem_onWay.mpr ⟨by simp [hx], y, by rw [List.append_assoc, e, hks']⟩) (by rw [hc]; simp)) (hnopen x y hx e)
  have hp := hO.path g
  have htf := fun x y => target_free hp.1 (fun x y hx _ e => hon x y hx e) x.length x y rfl
  have hcnt' : ∀ x y, x ≠ [] → x ++ y = ks → D.count (b ++ Tomllib.names x) = none := by
    intro x y hx e
    rw [← htf x y hx e]
    exact hon x y hx e
  have hTt : D.target t.names = b ++ Tomllib.names ks := by rw [hks']; exact htf ks [] hne (by simp)
  have hwk : PathWf (b ++ Tomllib.names ks) := hO.wf.2.1.append' (NamesWf.path (by
    have := hN.2
    rw [show (TableType.std t).table.names = A ++ ks from hks'] at this
    exact this.right))
  have hwx : ∀ x y, x ++ y = ks → PathWf (b ++ Tomllib.names x) := by
    intro x y e
    rw [← e, names_append, ← List.append_assoc] at hwk
    exact hwk.left
  -- what the checks say
  obtain ⟨v, c1, _⟩ := TChain.std st.heap (hO.chain g) hw hks' hne [] 0
  have hval := fun (hv : v = true) => TChain.std_valid st.heap (hO.chain g) hw hks' hne (by rw [← hv]; exact c1)
  have hval' : v = true → ∀ x y, x ≠ [] → x ++ y = ks → D.valueAt (b ++ Tomllib.names x) = none := fun hv x y hx e =>
    g.has (hwx x y e) (by simp [names_ne hx]) (hval hv x y hx e)
  have hlast : ks.dropLast ++ [ks.getLastD []] = ks := by
    rw [List.getLastD_eq_getLast?, List.getLast?_eq_some_getLast hne]
    exact List.dropLast_concat_getLast hne
  have hdl : ks.length ≠ 1 → ks.dropLast ≠ [] := by
    intro h1 h
    have := congrArg List.length h
    simp at this
    have := List.length_pos_iff.mpr hne
    omega
  have hbad : ∃ bad, (if !v then Out.ok true else keyHasChildrenWithValues st.map st.heap (if ks.length = 1 then root else keyOf [] (b ++ Tomllib.names ks.dropLast))) = .ok bad := by
    cases v with
    | false => exact ⟨true, rfl⟩
    | true =>
      by_cases h1 : ks.length = 1
      · rw [if_pos h1]; exact ⟨false, rfl⟩
      · rw [if_neg h1]
        have hd := hdl h1
        have hv1 := hval' rfl ks.dropLast _ hd hlast
        have hno := hcnt' ks.dropLast _ hd hlast
        have hwd := hwx _ _ hlast
        have he : b ++ Tomllib.names ks.dropLast = b ++ Tomllib.names ks.dropLast.dropLast ++ [.str (ks.dropLast.getLast hd)] := by
          conv => lhs; rw [← List.dropLast_concat_getLast hd]
          simp [Tomllib.names]
        rw [he] at hv1 hno hwd ⊢
        exact g.someKids hwd hv1 hno
  obtain ⟨bad, hbad⟩ := hbad
  have hck : stdCheck st.map st.heap (.std t) cts cis = .ok (bad || tableDefined st.map st.heap (keyOf [] (b ++ Tomllib.names ks)), keyOf [] (b ++ Tomllib.names ks),
      if ks.length = 1 then root else keyOf [] (b ++ Tomllib.names ks.dropLast)) := by
    unfold stdCheck
    rw [sameTop_false g hw hO hAN]
    simp only [Bool.false_eq_true, if_false, Out.bind_eq, c1, Out.bind, hbad]
  refine ⟨cts, cis, A, b, _, _, _, v, _, hpop, hO, hfil, hck, fun hf => ?_, by rw [c1, badKey, if_neg hnot, hTt]⟩
  rw [Bool.or_eq_false_iff] at hf
  obtain ⟨rfl, hdef⟩ := hf
  have hv : v = true := by
    cases v with
    | false => simp at hbad
    | true => rfl
  subst hv
  have hkids : keyHasChildrenWithValues st.map st.heap (if ks.length = 1 then root else keyOf [] (b ++ Tomllib.names ks.dropLast)) = .ok false := by simpa using hbad
  have hval := hval rfl
  have hval' := hval' rfl
  have hNd : t.names.dropLast = A ++ ks.dropLast := by rw [hks', List.dropLast_append_of_ne_nil hne]
  refine ⟨fun a ha => ⟨?_, fun hc => ⟨hcnt a ha hc, ?_⟩⟩, ?_, fun h1 h2 => ?_, f4, f5⟩
  · -- above `A` there are no values, below it they have been looked for
    obtain ⟨ha1, ha2⟩ := mem_onWay.mp ha
    rw [Option.isNone_iff_eq_none]
    rcases Nat.lt_or_ge A.length a.length with hl | hl
    · obtain ⟨x, rfl⟩ := List.prefix_of_prefix_length_le (l₁ := A) (l₂ := a) ⟨ks, hks⟩ ha2 (Nat.le_of_lt hl)
      have hx : x ≠ [] := by
        rintro rfl
        simp at hl
      obtain ⟨y, hy⟩ := ha2
      have e : x ++ y = ks := by
        rw [hks', List.append_assoc] at hy
        exact List.append_cancel_left hy
      rw [htf x y hx e]
      exact hval' x y hx e
    · exact hO.free g ha1 (List.prefix_of_prefix_length_le ha2 ⟨ks, hks⟩ hl)
  · rintro rfl
    exact hnot (hcnt _ ha hc)
  · rw [hTt]
    exact g.defined hwk (by simp [names_ne hne]) hdef
  · rw [hNd] at h1 h2
    have h3 : ks.length ≠ 1 := by
      intro h3
      obtain ⟨k, rfl⟩ := List.length_eq_one_iff.mp h3
      simp at h1 h2
      exact h2 (hAin h1)
    rw [if_neg h3] at hkids
    have hd := hdl h3
    have hpath : D.path [] t.names.dropLast = b ++ Tomllib.names ks.dropLast := by
      rw [hNd, path_append, hp.1]
      exact path_names D _ _ fun x y hx e => hcnt' x (y ++ [ks.getLastD []]) hx (by rw [← List.append_assoc, e, hlast])
    rw [hpath]
    have hno := hcnt' ks.dropLast _ hd hlast
    have hwd := hwx _ _ hlast
    have he : b ++ Tomllib.names ks.dropLast = b ++ Tomllib.names ks.dropLast.dropLast ++ [.str (ks.dropLast.getLast hd)] := by
      conv => lhs; rw [← List.dropLast_concat_getLast hd]
      simp [Tomllib.names]
    rw [he] at hno hwd hkids ⊢
    exact g.kids hwd hno hkids

/-- A header of a table that is read without an error is in order. -/
theorem Sim.std_clean {D : Sections} {st st' : PState} (h : D.Sim st) {w1 w2 : Str} {t : Table} {c : Option Str} (hw : (TableType.std t).wf)
    (f4 : D.apart t.names) (f5 : D.clear t.names) (hcnt : ∀ a ∈ onWay t.names, D.count (D.target a) ≠ none → a ∈ D.opened) (hhere : t.names ∈ D.opened → D.here ≠ D.path [] t.names)
    (he : (ET.table w1 (.std t) w2 c).eff st = .ok st') (hno : st'.errors = []) : D.fits (.table w1 (.std t) w2 c) := by
  -- the check has passed
  have hck : ∃ fk pk, stdCheck st.map st.heap (.std t) (stdPop (.std t) st.lastArrayTables st.lastArrayTablesIndex).1 (stdPop (.std t) st.lastArrayTables st.lastArrayTablesIndex).2 = .ok (false, fk, pk) := by
    rw [ET.eff, TableType.eff] at he
    obtain ⟨⟨s1, x⟩, he1, he2⟩ := Out.bind_ok.mp he
    simp at he2
    subst he2
    unfold stdTableAct at he1
    have hlen : (st.pushKs (t.keys.map (·.key))).keychain.length = t.keys.length := by simp [PState.pushKs, h.kc]
    simp only [hlen, Nat.lt_irrefl, if_false] at he1
    have he1 := Out.bind_ok.mp he1
    obtain ⟨⟨er, fk, pk⟩, hc, he1⟩ := he1
    cases er with
    | false => exact ⟨fk, pk, hc⟩
    | true =>
      simp only [if_true] at he1
      have he1 := Out.bind_ok.mp he1
      obtain ⟨⟨_, k, _⟩, _, he1⟩ := he1
      simp at he1
      rw [← he1.1] at hno
      simp at hno
  obtain ⟨fk, pk, hck⟩ := hck
  obtain ⟨cts, cis, A, b, er, fk', pk', v, pk'', e1, _, _, e2, e3, _⟩ := SimE.std_check (w1 := w1) (w2 := w2) (c := c) h hw f4 f5 hcnt hhere
  rw [e1, e2] at hck
  simp only [Out.ok.injEq, Prod.mk.injEq] at hck
  exact e3 hck.1

theorem addImplicitTables_eq {D : Sections} {m : KMap} {h : Heap} (g : D.Good (KP m) h) {cts : List TableType} {cis : List Nat} {A : List Str} {b : List Key}
    (hO : D.Open cts cis A b) {t : TableType} {ks : List Str} (hn : t.table.names = A ++ ks) : addImplicitTables m h cts cis t = implicitLoop ks m (parP b) true := by
  have hc := hO.chain g
  have hwf := hO.wf
  have hnm : t.table.keys.map (·.key) = A ++ ks := hn
  unfold addImplicitTables
  by_cases hb : b = []
  · have hA : A = [] := hwf.2.2.1.mpr hb
    have hts : cts = [] := hwf.2.2.2.mp hA
    subst hts
    have hcis : cis = [] := by
      have := hc.len.1
      simp at this
      exact List.length_eq_zero_iff.mp this.symm
    subst hcis
    subst hb
    subst hA
    rw [hnm]
    simp [getArrayTableKey, arrayTableKeyLoop, Out.bind_eq, Out.bind, parP]
  · rw [hc.top h hb]
    have hA : A ≠ [] := fun h => hb (hwf.2.2.1.mp h)
    have hts : cts ≠ [] := fun h => hA (hwf.2.2.2.mpr h)
    obtain ⟨u, hu⟩ : ∃ u, cts.getLast? = some u := ⟨_, List.getLast?_eq_some_getLast hts⟩
    obtain ⟨u', rfl, hu2, _⟩ := hO.last u hu
    have hlen : (TableType.arr u').table.keys.length = A.length := by rw [← hu2]; simp [Table.names, TableType.table]
    simp only [Out.bind_eq, Out.bind, hu, Bool.not_true, Bool.false_eq_true, if_false]
    rw [if_neg (keyOf_ne_root hwf.2.1), hlen, parP_ne hb]
    have : List.drop A.length (List.map (fun x => x.key) t.table.keys) = ks := by rw [hnm]; simp
    rw [this]

/-- The header of an array of tables is valid only if there is nothing of its name, or an array of tables. -/
theorem topValid {m : KMap} {h : Heap} {ts : List TableType} {is : List Nat} {A : List Str} {b : List Key} (hc : TChain (KP m) ts is A b) {t : Table} {ks : List Str}
    (hw : (TableType.arr t).wf) (hn : t.names = A ++ ks) (hne : ks ≠ []) (hb : ∀ x k y, x ++ k :: y = ks → ∃ v l, KP m (b ++ Tomllib.names x) = some ⟨v, .keys l⟩ ∧ k ∈ l) {j : Nat} {x : Str × Str}
    (hg : getArrayTableKey m h (ts ++ [.arr t]) (is ++ [j]) = .ok (true, x)) : KP m (b ++ Tomllib.names ks) = none ∨ ∃ c, KP m (b ++ Tomllib.names ks) = some ⟨none, .count c⟩ := by
  have hN : NamesWf t.names := Table.namesWf hw.2
  have hwk : PathWf (b ++ Tomllib.names ks) := hc.wf.2.1.append' (NamesWf.path (by rw [hn] at hN; exact hN.right))
  have hne' : b ++ Tomllib.names ks ≠ [] := by simp [names_ne hne]
  have hs := arr_step (m := m) hn hc.wf.2.2 hwk hne (fun x k y _ => hb x k y)
  rw [getArrayTableKey, hc.loop _ _ (by simp), arrayTableKeyLoop, hs] at hg
  simp only [Out.bind_eq, Out.bind] at hg
  rw [arr_full hn hwk hne] at hg
  have hg := Out.bind_ok.mp hg
  obtain ⟨i, _, hg⟩ := hg
  simp only [ne_eq, not_true, if_false, arrayTableKeyLoop, Out.ok.injEq, Prod.mk.injEq] at hg
  have hv := hg.1
  unfold arrTableValid at hv
  rw [KP_ne hne'] at hv
  split at hv
  · simp at hv
  · simp at hv
  next e => exact .inr ⟨_, e⟩
  next e => exact .inl e

/-- The value at the end of the names is a pair of the document, if there are no values on the way. -/
theorem Good.first {D : Sections} {K : List Key → Option HashValue} {h : Heap} (g : D.Good K h) {b : List Key} (hb : D.isTable b) (hs : D.Solid b) (hwb : PathWf b) {x : List Str} {v : VT} (hx : x ≠ [])
    (hv : D.valueAt (b ++ Tomllib.names x) = some v) (hf : ∀ x' y', x' ≠ [] → y' ≠ [] → x' ++ y' = x → D.valueAt (b ++ Tomllib.names x') = none) :
    D.Solid (b ++ Tomllib.names x) := by
  have hbv := (g.slot b hwb).val_tab hb
  have hno := g.noVal hs hbv
  have : ∃ e ∈ D.vals, e.1 <+: b ++ Tomllib.names x := by
    apply Classical.byContradiction
    intro hn
    have : D.valueAt (b ++ Tomllib.names x) = none := by
      rw [valueAt_none]
      intro e he hp
      exact absurd ⟨e, he, hp⟩ hn
    rw [this] at hv
    simp at hv
  obtain ⟨e, he, hp⟩ := this
  have hbe : b <+: e.1 := by
    rcases Nat.lt_or_ge e.1.length b.length with hl | hl
    · exact absurd (List.prefix_of_prefix_length_le hp (List.prefix_append _ _) (Nat.le_of_lt hl)) (hno e he)
    · exact List.prefix_of_prefix_length_le (List.prefix_append _ _) hp hl
  obtain ⟨q, hq⟩ := hbe
  rw [← hq] at hp
  obtain ⟨z, hz⟩ := (List.prefix_append_right_inj _).mp hp
  obtain ⟨x', y', e1, e2, e3⟩ := List.map_eq_append_iff.mp hz.symm
  have hx' : x' ≠ [] := by
    rintro rfl
    simp at e2
    subst e2
    rw [List.append_nil] at hq
    exact hno e he (by rw [hq]; exact List.prefix_refl _)
  have hq' : e.1 = b ++ Tomllib.names x' := by rw [← hq, ← e2]; rfl
  by_cases hy : y' = []
  · subst hy
    rw [List.append_nil] at e1
    rw [e1, ← hq']
    exact g.closed e.1 (.inl ⟨e, he, rfl⟩)
  · have := hf x' y' hx' hy e1.symm
    rw [← hq'] at this
    exact absurd this (valueAt_val he)

/-- A header of an array of tables that is read without an error is in order. -/
theorem Sim.arr_clean {D : Sections} {st st' : PState} (h : D.Sim st) {w1 w2 : Str} {t : Table} {c : Option Str} (hw : (TableType.arr t).wf)
    (hap : D.apart t.names) (hcl : D.clear t.names) (hcnt : ∀ a ∈ onWay t.names, D.count (D.target a) ≠ none → a ∈ D.opened)
    (hor : t.names ∈ D.opened ∨ (∀ P ∈ D.opened, ¬ P.isPrefixOf t.names) ∨ (D.opened.getLastD []).isPrefixOf t.names)
    (hit : ∀ a ∈ onWay t.names, a ≠ t.names → ∀ kvs ws, D.valueAt (D.target a) ≠ some (.itab kvs ws))
    (he : (ET.table w1 (.arr t) w2 c).eff st = .ok st') (hno : st'.errors = []) : D.fits (.table w1 (.arr t) w2 c) := by
  obtain ⟨cts0, cis0, A0, b0, hO0, hT0, hop⟩ := h.stack
  have hN := wf_names hw
  have g := h.good
  by_cases hin : t.names ∈ D.opened
  · refine ⟨fun a ha => ⟨?_, fun _ hc => hcnt a ha hc⟩, .inl hin, hap, hcl⟩
    obtain ⟨ha1, ha2⟩ := mem_onWay.mp ha
    rw [hop, List.mem_map] at hin
    obtain ⟨u, hu, hun⟩ := hin
    have := (hO0.counted g u hu).2.1
    rw [hun] at this
    rw [Option.isNone_iff_eq_none]
    exact hO0.free g ha1 (ha2.trans this)
  have hor := hor.resolve_left hin
  obtain ⟨cts, cis, A, b, hO, ⟨ks, hks⟩, hAN, hfil, hpl⟩ := arrPlace_new (m := st.map) (h := st.heap) g hw hO0 hop hap hin hor
  obtain ⟨a1, a2⟩ := arrPop hO0 hT0
  have hks' : t.names = A ++ ks := hks.symm
  have hne : ks ≠ [] := by
    rintro rfl
    exact hAN (by rw [hks', List.append_nil])
  have hnopen : ∀ x y, x ≠ [] → x ++ y = ks → A ++ x ∉ D.opened := by
    intro x y hx e hm
    have : A ++ x ∈ D.opened.filter fun P => P.isPrefixOf t.names := by
      rw [List.mem_filter, List.isPrefixOf_iff_prefix]
      exact ⟨hm, y, by rw [List.append_assoc, e, hks']⟩
    rw [hfil, List.mem_map] at this
    obtain ⟨u, hu, e'⟩ := this
    have := (hO.counted g u hu).2.1.length_le
    rw [e'] at this
    simp at this
    have := List.length_pos_iff.mpr hx
    omega
  have hmw : ∀ x y, x ≠ [] → x ++ y = ks → A ++ x ∈ onWay t.names := fun x y hx e => mem_onWay.mpr ⟨by simp [hx], y, by rw [List.append_assoc, e, hks']⟩
  have hon : ∀ x y, x ≠ [] → x ++ y = ks → D.count (D.target (A ++ x)) = none := by
    intro x y hx e
    cases hc : D.count (D.target (A ++ x)) with
    | none => rfl
    | some n => exact absurd (hcnt (A ++ x) (hmw x y hx e) (by rw [hc]; simp)) (hnopen x y hx e)
  have hp := hO.path g
  have htf := fun x y => target_free hp.1 (fun x y hx _ e => hon x y hx e) x.length x y rfl
  have hcnt' : ∀ x y, x ≠ [] → x ++ y = ks → D.count (b ++ Tomllib.names x) = none := by
    intro x y hx e
    rw [← htf x y hx e]
    exact hon x y hx e
  have hTt : D.target t.names = b ++ Tomllib.names ks := by rw [hks']; exact htf ks [] hne (by simp)
  have hwk : PathWf (b ++ Tomllib.names ks) := hO.wf.2.1.append' (NamesWf.path (by
    have := hN.2
    rw [show (TableType.arr t).table.names = A ++ ks from hks'] at this
    exact this.right))
  have hwx : ∀ x y, x ++ y = ks → PathWf (b ++ Tomllib.names x) := by
    intro x y e
    rw [← e, names_append, ← List.append_assoc] at hwk
    exact hwk.left
  -- the effect
  rw [ET.eff, TableType.eff] at he
  obtain ⟨⟨s1, x⟩, he1, he2⟩ := Out.bind_ok.mp he
  simp at he2
  subst he2
  unfold arrayTableAct at he1
  have hlen : (st.pushKs (t.keys.map (·.key))).keychain.length = t.keys.length := by simp [PState.pushKs, h.kc]
  simp only [hlen, Nat.lt_irrefl, if_false, Nat.sub_self, List.take_zero] at he1
  have e1 : (st.pushKs (t.keys.map (·.key))).lastArrayTables = st.lastArrayTables := rfl
  have e2 : (st.pushKs (t.keys.map (·.key))).lastArrayTablesIndex = st.lastArrayTablesIndex := rfl
  have e3 : (st.pushKs (t.keys.map (·.key))).map = st.map := rfl
  have e4 : (st.pushKs (t.keys.map (·.key))).heap = st.heap := rfl
  rw [e1, e2, e3, e4, a1, a2] at he1
  obtain ⟨⟨m2, ts2, is2⟩, hplace, he1⟩ := Out.bind_ok.mp he1
  obtain ⟨⟨valid, fk, pk⟩, hkey, he1⟩ := Out.bind_ok.mp he1
  have hvalid : valid = true := by
    cases valid with
    | true => rfl
    | false =>
      simp at he1
      rw [← he1.1] at hno
      simp at hno
  subst hvalid
  have hpush : ∃ m1 s, addImplicitTables st.map st.heap cts cis (.arr t) = .ok m1 ∧ arrPush st.map st.heap (.arr t) cts cis = .ok s ∧ s = (m1, cts ++ [.arr t], cis ++ [0]) := by
    have : ∃ s, arrPush st.map st.heap (.arr t) cts cis = .ok s := by
      rcases hpl with e | e
      · rw [e] at hplace; exact ⟨_, hplace⟩
      · rw [e, arrAgain] at hplace
        obtain ⟨s, hs, _⟩ := Out.bind_ok.mp hplace
        exact ⟨s, hs⟩
    obtain ⟨s, hs⟩ := this
    have hs' := hs
    rw [arrPush] at hs'
    obtain ⟨m1, h1, h2⟩ := Out.bind_ok.mp hs'
    simp at h2
    exact ⟨m1, s, h1, hs, h2.symm⟩
  obtain ⟨m1, _, hadd, hpush, rfl⟩ := hpush
  -- no values on the way
  have hval : ∀ n x y, x.length = n → x ≠ [] → y ≠ [] → x ++ y = ks → D.valueAt (b ++ Tomllib.names x) = none := by
    intro n
    induction n using Nat.strongRecOn with
    | ind n ih =>
      intro x y hn hx hy e
      cases hv : D.valueAt (b ++ Tomllib.names x) with
      | none => rfl
      | some v =>
        exfalso
        have hel := hO.elem g
        have hsol := g.first hel.1 hel.2 hO.wf.2.1 hx hv (fun x' y' hx' hy' e' => by
          refine ih x'.length ?_ x' (y' ++ y) rfl hx' (by simp [hy']) (by rw [← List.append_assoc, e', e])
          rw [← hn, ← e', List.length_append]
          have := List.length_pos_iff.mpr hy'
          omega)
        obtain ⟨a, fp, k1, _⟩ := (g.slot _ (hwx x y e)).val v hv
        have hch : ∃ c, v.children = .count c := by
          cases v with
          | leaf s => exact ⟨_, rfl⟩
          | arr es c1 c2 => exact ⟨_, rfl⟩
          | itab kvs ws =>
            refine absurd ?_ (hit (A ++ x) (hmw x y hx e) (by rw [hks', ← e]; simp [hy]) kvs ws)
            rw [htf x y hx e]; exact hv
        obtain ⟨c, hch⟩ := hch
        rw [hch] at k1
        have := implicitLoop_stop x y st.map b true hy (hwx x y e) (fun x' k z e' => g.hasName (hsol.str _ _ (Tomllib.names z) (by rw [← e', names_append]; simp [Tomllib.names]))) k1 (fun h => absurd h hx)
        rw [addImplicitTables_eq g hO (t := .arr t) hks', ← e, this] at hadd
        simp at hadd
  obtain ⟨m1', i1, i2, i3, i4, i5⟩ := enter_header g h.only h.down hO hw hks' hne (fun x y hx hy e => ⟨hval x.length x y rfl hx hy e, hcnt' x y hx e⟩) hcl
  rw [hadd] at i1
  simp at i1
  subst i1
  have hway : D.way [] t.names = D.way [] A ++ wayN b ks := by rw [hks', way_append, hp.1, way_names D ks b fun x y hx _ e => hcnt' x y hx e]
  have i2' : Good { D with names := D.names ++ D.way [] t.names } (KP m1) st.heap := i2
  have hnm : ∀ x k y, x ++ k :: y = ks → (b ++ Tomllib.names x, k) ∈ D.names ++ D.way [] t.names := by
    intro x k y e
    rw [hway]
    have := (mem_wayN ks b _ k).mpr ⟨x, y, e, rfl⟩
    simp [this]
  have hO1 : Open { D with names := D.names ++ D.way [] t.names } cts cis A b := hO.mono (fun e he => by simp [he]) (fun _ _ _ => rfl)
  have hch1 := hO1.chain i2'
  have hTne : b ++ Tomllib.names ks ≠ [] := by simp [names_ne hne]
  -- the entry of the array
  have hm2 : ∃ j, ts2 = cts ++ [.arr t] ∧ is2 = cis ++ [j] ∧ (∀ q, PathWf q → q ≠ b ++ Tomllib.names ks → KP m2 q = KP m1 q) ∧
      (KP m2 (b ++ Tomllib.names ks) = KP m1 (b ++ Tomllib.names ks) ∨ ∃ v c, KP m1 (b ++ Tomllib.names ks) = some ⟨v, .count c⟩ ∧ KP m2 (b ++ Tomllib.names ks) = some ⟨v, .count (c + 1)⟩) := by
    have same : Out.ok (m1, cts ++ [TableType.arr t], cis ++ [0]) = Out.ok (m2, ts2, is2) → ∃ j, ts2 = cts ++ [.arr t] ∧ is2 = cis ++ [j] ∧ (∀ q, PathWf q → q ≠ b ++ Tomllib.names ks → KP m2 q = KP m1 q) ∧
      (KP m2 (b ++ Tomllib.names ks) = KP m1 (b ++ Tomllib.names ks) ∨ ∃ v c, KP m1 (b ++ Tomllib.names ks) = some ⟨v, .count c⟩ ∧ KP m2 (b ++ Tomllib.names ks) = some ⟨v, .count (c + 1)⟩) := by
      intro e
      simp at e
      obtain ⟨rfl, rfl, rfl⟩ := e
      exact ⟨0, rfl, rfl, fun _ _ _ => rfl, .inl rfl⟩
    rcases hpl with e | e
    · rw [e, hpush] at hplace
      exact same hplace
    · rw [e, arrAgain, hpush] at hplace
      have hpar := hch1.parentNew hw hks' hne 0
      simp only [Out.bind_eq, Out.bind, hpar] at hplace
      split at hplace
      · rw [arrNext, incrementArrayTableIndex, hpar] at hplace
        simp only [Out.bind_eq, Out.bind, KP_ne hTne, List.getLast?_concat, List.dropLast_concat] at hplace
        cases hk : KP m1 (b ++ Tomllib.names ks) with
        | none =>
          simp [hk] at hplace
          obtain ⟨rfl, rfl, rfl⟩ := hplace
          exact ⟨1, rfl, rfl, fun _ _ _ => rfl, .inl hk⟩
        | some hv =>
          obtain ⟨v, l⟩ := hv
          cases l with
          | keys l =>
            simp [hk] at hplace
            obtain ⟨rfl, rfl, rfl⟩ := hplace
            exact ⟨1, rfl, rfl, fun _ _ _ => rfl, .inl hk⟩
          | count c =>
            simp [hk] at hplace
            obtain ⟨rfl, rfl, rfl⟩ := hplace
            refine ⟨1, rfl, rfl, fun q hq hqn => ?_, .inr ⟨v, c, rfl, ?_⟩⟩
            · rw [← parP_ne hTne, KP_insert hwk hq, if_neg (Ne.symm hqn)]
            · rw [← parP_ne hTne, KP_insert hwk hwk, if_pos rfl]
      · exact same hplace
  obtain ⟨j, rfl, rfl, hq, hT⟩ := hm2
  have hstr : ∀ x k y, x ++ k :: y = ks → b ++ Tomllib.names x ≠ b ++ Tomllib.names ks := by
    intro x k y e he
    rw [← e] at he
    have := congrArg List.length he
    simp [Tomllib.names] at this
  have hch2 : TChain (KP m2) cts cis A b := hch1.congr fun r hr hn => by
    refine hq r (PathWf.pre hO.wf.2.1 hr) ?_
    rintro rfl
    have h1 := hr.length_le
    simp [Tomllib.names] at h1
    exact hne (List.length_eq_zero_iff.mp (by omega))
  have hv := topValid hch2 hw hks' hne (fun x k y e => by
    rw [hq _ (hwx x (k :: y) e) (hstr x k y e)]
    exact i2'.hasName (hnm x k y e)) hkey
  have hsl := i2'.slot _ hwk
  have hvT : D.valueAt (b ++ Tomllib.names ks) = none := by
    cases hv' : D.valueAt (b ++ Tomllib.names ks) with
    | none => rfl
    | some v =>
      exfalso
      obtain ⟨a, fp, k1, _⟩ := hsl.val v hv'
      have : ∃ l, KP m2 (b ++ Tomllib.names ks) = some ⟨some a, l⟩ := by
        rcases hT with e | ⟨v', c', e1, e2⟩
        · exact ⟨_, by rw [e, k1]⟩
        · rw [k1] at e1
          simp at e1
          exact ⟨_, by rw [e2, ← e1.1]⟩
      obtain ⟨l, this⟩ := this
      rw [this] at hv
      simp at hv
  have htT : ¬ D.isTable (b ++ Tomllib.names ks) := by
    intro ht
    have ht1 : isTable { D with names := D.names ++ D.way [] t.names } (b ++ Tomllib.names ks) := by
      rcases ht with h1 | h1 | h1 | ⟨e, he, h1⟩
      · exact .inl h1
      · exact .inr (.inl h1)
      · exact .inr (.inr (.inl h1))
      · exact .inr (.inr (.inr ⟨e, by simp [he], h1⟩))
    obtain ⟨v, l, k1, _⟩ := hsl.tab ht1
    have : KP m2 (b ++ Tomllib.names ks) = some ⟨v, .keys l⟩ := by
      rcases hT with e | ⟨v', c', e1, e2⟩
      · rw [e, k1]
      · rw [k1] at e1
        simp at e1
    rw [this] at hv
    simp at hv
  have hcT := hcnt' ks [] hne (by simp)
  refine ⟨fun a ha => ⟨?_, fun _ hc => hcnt a ha hc⟩, .inr ⟨by rw [hTt]; exact htT, by rw [hTt]; exact hcT, hor⟩, hap, hcl⟩
  obtain ⟨ha1, ha2⟩ := mem_onWay.mp ha
  rw [Option.isNone_iff_eq_none]
  rcases Nat.lt_or_ge A.length a.length with hl | hl
  · obtain ⟨x, rfl⟩ := List.prefix_of_prefix_length_le (l₁ := A) (l₂ := a) ⟨ks, hks⟩ ha2 (Nat.le_of_lt hl)
    have hx : x ≠ [] := by
      rintro rfl
      simp at hl
    obtain ⟨y, hy⟩ := ha2
    have e : x ++ y = ks := by
      rw [hks', List.append_assoc] at hy
      exact List.append_cancel_left hy
    rw [htf x y hx e]
    by_cases hy : y = []
    · subst hy
      rw [List.append_nil] at e
      rw [e]; exact hvT
    · exact hval x.length x y rfl hx hy e
  · exact hO.free g ha1 (List.prefix_of_prefix_length_le ha2 ⟨ks, hks⟩ hl)

end Sections
end Tomllib
