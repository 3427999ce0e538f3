import Verif.Lemmas.Shut
/-!
# Headers with the name of an array of tables that is not open any more, or has just been opened
-/

namespace Tomllib
namespace Sections

/-- The way to an array of tables. -/
theorem Good.wayTo {D : Sections} {m : KMap} {h : Heap} (g : D.Good (KP m) h) {b : List Key} {ks : List Str} {n : Nat} (hc : D.count (b ++ Tomllib.names ks) = some n) :
    PathWf (b ++ Tomllib.names ks) ∧ 1 ≤ n ∧ (∀ x k y, x ++ k :: y = ks → (b ++ Tomllib.names x, k) ∈ D.names) ∧
    (∀ x y, x ≠ [] → y ≠ [] → x ++ y = ks → D.valueAt (b ++ Tomllib.names x) = none ∧ D.count (b ++ Tomllib.names x) = none) ∧
    ∀ x y, x ≠ [] → x ++ y = ks → keyHasValue m h (keyOf [] (b ++ Tomllib.names x)) = false := by
  have hsp : D.Spot (b ++ Tomllib.names ks) := .inr (.inr (.inl ⟨_, count_mem hc, rfl⟩))
  have hw := g.wf _ hsp
  have hsol := g.closed _ hsp
  have hnm : ∀ x k y, x ++ k :: y = ks → (b ++ Tomllib.names x, k) ∈ D.names := fun x k y e =>
    hsol.str _ _ (Tomllib.names y) (by rw [← e, names_append]; simp [Tomllib.names])
  refine ⟨hw, g.pos _ (count_mem hc), hnm, fun x y hx hy e => ?_, fun x y hx e => ?_⟩
  · cases y with
    | nil => exact absurd rfl hy
    | cons k y =>
      have hm := hnm x k y e
      have hs := g.slot _ (g.wf _ (.inr (.inr (.inr ⟨_, hm, rfl⟩))))
      exact ⟨hs.val_tab (isTable_names hm), hs.arr_tab (isTable_names hm)⟩
  · unfold keyHasValue
    rw [KP_ne (by simp [names_ne hx])]
    cases y with
    | nil =>
      rw [List.append_nil] at e
      rw [e, (g.slot _ hw).arr _ hc]
    | cons k y =>
      have hm := hnm x k y e
      obtain ⟨v, l, k1, _, k3, k4⟩ := (g.slot _ (g.wf _ (.inr (.inr (.inr ⟨_, hm, rfl⟩))))).tab (isTable_names hm)
      rw [k1]
      by_cases hh : b ++ Tomllib.names x ∈ D.heads
      · obtain ⟨a, rfl, hcell⟩ := k3 hh
        simp [hcell]
      · rw [k4 hh]

/-- The header of a table, with the name of an array of tables that has been taken off the stack. -/
theorem SimE.std_again {D : Sections} {st : PState} {E : List ParseError} (h : D.SimE E st) {t : Table} (hw : (TableType.std t).wf) (hcl : D.clear t.names)
    {cts : List TableType} {cis : List Nat} {A ks : List Str} {b : List Key} (hpop : stdPop (.std t) st.lastArrayTables st.lastArrayTablesIndex = (cts, cis)) (hO : D.Open cts cis A b)
    (hks : t.names = A ++ ks) (hne : ks ≠ []) {n : Nat} (hc : D.count (b ++ Tomllib.names ks) = some n) : ∃ x, stdTableAct t (st.pushKs (t.keys.map (·.key))) = .ok x := by
  have g := h.good
  obtain ⟨hwk, _, hnm, hfree, hval⟩ := g.wayTo hc
  have hAN : A ≠ t.names := by rw [hks]; simp [hne]
  obtain ⟨v, c1, c2⟩ := TChain.std st.heap (hO.chain g) hw hks hne [] 0
  obtain rfl := c2 hval
  have hlast : ks.dropLast ++ [ks.getLastD []] = ks := by
    rw [List.getLastD_eq_getLast?, List.getLast?_eq_some_getLast hne]
    exact List.dropLast_concat_getLast hne
  have hdl : ks.length ≠ 1 → ks.dropLast ≠ [] := by
    intro h1 h
    have := congrArg List.length h
    simp at this
    have := List.length_pos_iff.mpr hne
    omega
  have hwd : PathWf (b ++ Tomllib.names ks.dropLast) := by
    rw [← hlast, names_append, ← List.append_assoc] at hwk
    exact hwk.left
  have hbad : ∃ bad, keyHasChildrenWithValues st.map st.heap (if ks.length = 1 then root else keyOf [] (b ++ Tomllib.names ks.dropLast)) = .ok bad := by
    by_cases h1 : ks.length = 1
    · rw [if_pos h1]; exact ⟨false, rfl⟩
    · rw [if_neg h1]
      have hd := hdl h1
      have hf := hfree ks.dropLast _ hd (by simp) hlast
      have he : b ++ Tomllib.names ks.dropLast = b ++ Tomllib.names ks.dropLast.dropLast ++ [.str (ks.dropLast.getLast hd)] := by
        conv => lhs; rw [← List.dropLast_concat_getLast hd]
        simp [Tomllib.names]
      rw [he] at hf hwd ⊢
      exact g.someKids hwd hf.1 hf.2
  obtain ⟨bad, hbad⟩ := hbad
  have hck : stdCheck st.map st.heap (.std t) cts cis = .ok (bad || tableDefined st.map st.heap (keyOf [] (b ++ Tomllib.names ks)), keyOf [] (b ++ Tomllib.names ks),
      if ks.length = 1 then root else keyOf [] (b ++ Tomllib.names ks.dropLast)) := by
    unfold stdCheck
    rw [sameTop_false g hw hO hAN]
    simp only [Bool.false_eq_true, if_false, Out.bind_eq, c1, Out.bind, hbad, Bool.not_true]
  obtain ⟨m1, i1, i2, i3, i4, i5⟩ := enter_header g h.only h.down hO hw hks hne hfree hcl
  have hadd := addToTableSet_none g i3 hO (fun n hn => by
    refine (i2.slot _ ?_).arr n hn
    by_cases hb : b = []
    · rw [hb]; trivial
    · exact (hO.parentCount hb).choose_spec.2.1) (t.names.getLastD [])
  have hpar : ∃ v l, (stdEntry m1 st.heap.length (keyOf [] (b ++ Tomllib.names ks))).get? (if ks.length = 1 then root else keyOf [] (b ++ Tomllib.names ks.dropLast)) = some ⟨v, .keys l⟩ := by
    have hTne : b ++ Tomllib.names ks ≠ [] := by simp [names_ne hne]
    have hse : ∀ q, PathWf q → q ≠ b ++ Tomllib.names ks → KP (stdEntry m1 st.heap.length (keyOf [] (b ++ Tomllib.names ks))) q = KP m1 q := by
      intro q hq hqn
      unfold stdEntry
      split <;> rw [← parP_ne hTne, KP_insert hwk hq, if_neg (Ne.symm hqn)]
    by_cases h1 : ks.length = 1
    · rw [if_pos h1]
      obtain ⟨v, l, r1, _⟩ := (i2.slot [] trivial).tab (.inl rfl)
      refine ⟨v, l, ?_⟩
      have := hse [] trivial (Ne.symm hTne)
      rw [r1] at this
      exact this
    · rw [if_neg h1, KP_ne (by simp [names_ne (hdl h1)]), hse _ hwd (fun e => by
        have := congrArg List.length e
        simp [Tomllib.names] at this
        have := List.length_pos_iff.mpr hne
        omega)]
      obtain ⟨v, l, r1, _⟩ := i2.hasName (p := b ++ Tomllib.names ks.dropLast) (k := ks.getLastD []) (List.mem_append_left _ (hnm ks.dropLast (ks.getLastD []) [] hlast))
      exact ⟨v, l, r1⟩
  obtain ⟨v, l, hpar⟩ := hpar
  unfold stdTableAct
  have hlen : (st.pushKs (t.keys.map (·.key))).keychain.length = t.keys.length := by simp [PState.pushKs, h.kc]
  simp only [hlen, Nat.lt_irrefl, if_false]
  have e1 : (st.pushKs (t.keys.map (·.key))).lastArrayTables = st.lastArrayTables := rfl
  have e2 : (st.pushKs (t.keys.map (·.key))).lastArrayTablesIndex = st.lastArrayTablesIndex := rfl
  have e3 : (st.pushKs (t.keys.map (·.key))).map = st.map := rfl
  have e4 : (st.pushKs (t.keys.map (·.key))).heap = st.heap := rfl
  have e5 : (List.map (fun x => x.key) t.keys).getLastD [] = t.names.getLastD [] := rfl
  rw [e1, e2, e3, e4, e5, hpop, hck]
  simp only [Out.bind_eq, Out.bind]
  split
  · rw [c1]; exact ⟨_, rfl⟩
  · rw [i1]
    dsimp only
    rw [hadd]
    dsimp only
    unfold stdParent
    rw [hpar]
    exact ⟨_, rfl⟩

/-- The header of an array of tables, with the name of one that has been taken off the stack. -/
theorem SimE.arr_again {D : Sections} {st : PState} {E : List ParseError} (h : D.SimE E st) {w1 w2 : Str} {t : Table} {c : Option Str} (hw : (TableType.arr t).wf)
    (hap : D.apart t.names) (hcl : D.clear t.names) (hin : t.names ∉ D.opened) (hc : D.count (D.target t.names) ≠ none) (hs : ¬ D.shut (.table w1 (.arr t) w2 c)) :
    (∃ x, arrayTableAct t (st.pushKs (t.keys.map (·.key))) = .ok x) ∧ ¬ D.crashes (.table w1 (.arr t) w2 c) := by
  obtain ⟨cts0, cis0, A0, b0, hO0, hT0, hop⟩ := h.stack
  obtain ⟨a1, a2⟩ := arrPop hO0 hT0
  have hN := wf_names hw
  have g := h.good
  have hall : ∀ a ∈ onWay t.names, a ≠ t.names → D.count (D.target a) ≠ none → a ∈ D.opened ∧ (D.opened.getLastD []).isPrefixOf t.names := by
    intro a ha hne hca
    refine ⟨Classical.byContradiction fun hn => hs ⟨hap, hin, a, ha, hne, hca, .inl hn⟩, Classical.byContradiction fun hn => hs ⟨hap, hin, a, ha, hne, hca, .inr hn⟩⟩
  have hor : (∀ P ∈ D.opened, ¬ P.isPrefixOf t.names) ∨ (D.opened.getLastD []).isPrefixOf t.names := by
    by_cases hl : (D.opened.getLastD []).isPrefixOf t.names = true
    · exact .inr hl
    · left
      intro P hP hpre
      rw [hop, List.mem_map] at hP
      obtain ⟨u, hu, rfl⟩ := hP
      obtain ⟨q1, q2, q3, q4⟩ := hO0.counted g u hu
      refine hl (hall _ (mem_onWay.mpr ⟨q3, List.isPrefixOf_iff_prefix.mp hpre⟩) (fun e => ?_) q1).2
      rw [← e, hop] at hin
      exact hin (List.mem_map_of_mem hu)
  obtain ⟨cts, cis, A, b, hO, ⟨ks, hks⟩, hAN, hfil, hpl⟩ := arrPlace_new (m := st.map) (h := st.heap) g hw hO0 hop hap hin hor
  have hks' : t.names = A ++ ks := hks.symm
  have hne : ks ≠ [] := by
    rintro rfl
    exact hAN (by rw [hks', List.append_nil])
  have hnopen : ∀ x y, x ≠ [] → x ++ y = ks → A ++ x ∉ D.opened := by
    intro x y hx e hm
    have : A ++ x ∈ D.opened.filter fun P => P.isPrefixOf t.names := by
      rw [List.mem_filter, List.isPrefixOf_iff_prefix]
      exact ⟨hm, y, by rw [List.append_assoc, e, hks']⟩
    rw [hfil, List.mem_map] at this
    obtain ⟨u, hu, e'⟩ := this
    have := (hO.counted g u hu).2.1.length_le
    rw [e'] at this
    simp at this
    have := List.length_pos_iff.mpr hx
    omega
  have hon : ∀ x y, x ≠ [] → y ≠ [] → x ++ y = ks → D.count (D.target (A ++ x)) = none := by
    intro x y hx hy e
    refine Classical.byContradiction fun hn => hnopen x y hx e (hall (A ++ x) (mem_onWay.mpr ⟨by simp [hx], y, by rw [List.append_assoc, e, hks']⟩) (by rw [hks', ← e]; simp [hy]) hn).1
  have hp := hO.path g
  have hTt : D.target t.names = b ++ Tomllib.names ks := by rw [hks']; exact target_free hp.1 hon ks.length ks [] rfl hne (by simp)
  rw [hTt] at hc
  obtain ⟨n, hn⟩ : ∃ n, D.count (b ++ Tomllib.names ks) = some n := by
    cases e : D.count (b ++ Tomllib.names ks) with
    | none => exact absurd e hc
    | some n => exact ⟨n, rfl⟩
  obtain ⟨hwk, hn1, hnm, hfree, hval⟩ := g.wayTo hn
  have hTne : b ++ Tomllib.names ks ≠ [] := by simp [names_ne hne]
  have hcr : ¬ D.crashes (.table w1 (.arr t) w2 c) := by
    have hvT : D.valueAt (D.target t.names) = none := by
      rw [hTt]
      exact (g.slot _ hwk).val_arr hc
    rintro (⟨a, ha, hne1, hsm, _⟩ | ⟨hb, _⟩)
    · obtain ⟨ha1, ha2⟩ := mem_onWay.mp ha
      have : D.valueAt (D.target a) = none := by
        rcases Nat.lt_or_ge A.length a.length with hl | hl
        · obtain ⟨x, rfl⟩ := List.prefix_of_prefix_length_le (l₁ := A) (l₂ := a) ⟨ks, hks⟩ ha2 (Nat.le_of_lt hl)
          have hx : x ≠ [] := by
            rintro rfl
            simp at hl
          obtain ⟨y, hy⟩ := ha2
          have e : x ++ y = ks := by
            rw [hks', List.append_assoc] at hy
            exact List.append_cancel_left hy
          have hy0 : y ≠ [] := by
            rintro rfl
            rw [List.append_nil] at e
            exact hne1 (by rw [e, hks'])
          rw [target_free hp.1 hon x.length x y rfl hx e]
          exact (hfree x y hx hy0 e).1
        · exact hO.free g ha1 (List.prefix_of_prefix_length_le ha2 ⟨ks, hks⟩ hl)
      rw [this] at hsm
      simp at hsm
    · rw [hvT] at hb
      simp [bare] at hb
  refine ⟨?_, hcr⟩
  obtain ⟨m1, i1, i2, i3, i4, i5⟩ := enter_header g h.only h.down hO hw hks' hne hfree hcl
  have hO1 : Open { D with names := D.names ++ D.way [] (TableType.arr t).table.names } cts cis A b := hO.mono (fun e he => by simp [he]) (fun _ _ _ => rfl)
  have hch1 := hO1.chain i2
  have hk1 : KP m1 (b ++ Tomllib.names ks) = some ⟨none, .count n⟩ := (i2.slot _ hwk).arr n hn
  have hnm1 : ∀ x k y, x ++ k :: y = ks → ∃ v l, KP m1 (b ++ Tomllib.names x) = some ⟨v, .keys l⟩ ∧ k ∈ l := fun x k y e =>
    i2.hasName (by have := hnm x k y e; simp [this])
  have hpush : arrPush st.map st.heap (.arr t) cts cis = .ok (m1, cts ++ [.arr t], cis ++ [0]) := by rw [arrPush, i1]; rfl
  -- the entry of the array
  have hm2 : ∃ m2 j n', arrPlace st.map st.heap (.arr t) cts0 cis0 = .ok (m2, cts ++ [.arr t], cis ++ [j]) ∧ (∀ q, PathWf q → q ≠ b ++ Tomllib.names ks → KP m2 q = KP m1 q) ∧
      KP m2 (b ++ Tomllib.names ks) = some ⟨none, .count n'⟩ ∧ 1 ≤ n' := by
    rcases hpl with e | e
    · exact ⟨m1, 0, n, by rw [e, hpush], fun _ _ _ => rfl, hk1, hn1⟩
    · have hpar := hch1.parentNew hw hks' hne 0
      have hcon : m1.contains (keyOf [] (b ++ Tomllib.names ks)) = true := by
        unfold SMap.contains
        rw [KP_ne hTne, hk1]; rfl
      refine ⟨m1.insert (parP (b ++ Tomllib.names ks)) ⟨none, .count (n + 1)⟩, 1, n + 1, ?_, fun q hq hqn => ?_, ?_, by omega⟩
      · rw [e, arrAgain, hpush]
        simp only [Out.bind_eq, Out.bind, hpar, hcon, if_true]
        rw [arrNext, incrementArrayTableIndex, hpar]
        simp only [Out.bind_eq, Out.bind, KP_ne hTne, List.getLast?_concat, List.dropLast_concat, hk1, parP_ne hTne]
      · rw [KP_insert hwk hq, if_neg (Ne.symm hqn)]
      · rw [KP_insert hwk hwk, if_pos rfl]
  obtain ⟨m2, j, n', hplace, hq, hT, hn'⟩ := hm2
  have hstr : ∀ x k y, x ++ k :: y = ks → b ++ Tomllib.names x ≠ b ++ Tomllib.names ks := by
    intro x k y e he
    rw [← e] at he
    have := congrArg List.length he
    simp [Tomllib.names] at this
  have hch2 : TChain (KP m2) cts cis A b := hch1.congr fun r hr hn => by
    refine hq r (PathWf.pre hO.wf.2.1 hr) ?_
    rintro rfl
    have h1 := hr.length_le
    simp [Tomllib.names] at h1
    exact hne (List.length_eq_zero_iff.mp (by omega))
  have hwx : ∀ x y, x ++ y = ks → PathWf (b ++ Tomllib.names x) := by
    intro x y e
    rw [← e, names_append, ← List.append_assoc] at hwk
    exact hwk.left
  have hkey : ∃ x, getArrayTableKey m2 st.heap (cts ++ [.arr t]) (cis ++ [j]) = .ok x := by
    have hst := arr_step (m := m2) hks' hch2.wf.2.2 hwk hne (fun x k y _ e => by
      rw [hq _ (hwx x (k :: y) e) (hstr x k y e)]
      exact hnm1 x k y e)
    rw [getArrayTableKey, hch2.loop _ _ (by simp), arrayTableKeyLoop, hst]
    simp only [Out.bind_eq, Out.bind]
    rw [arr_full hks' hwk hne]
    have hi : arrTableIndex m2 (keyOf [] (b ++ Tomllib.names ks)) j = .ok (n' - 1) := by
      rw [arrTableIndex, KP_ne hTne, hT]
      simp only
      rw [if_neg (by omega)]
    rw [hi]
    exact ⟨_, rfl⟩
  obtain ⟨⟨vl, fk, pk⟩, hkey⟩ := hkey
  unfold arrayTableAct
  have hlen : (st.pushKs (t.keys.map (·.key))).keychain.length = t.keys.length := by simp [PState.pushKs, h.kc]
  simp only [hlen, Nat.lt_irrefl, if_false, Nat.sub_self, List.take_zero]
  have e1 : (st.pushKs (t.keys.map (·.key))).lastArrayTables = st.lastArrayTables := rfl
  have e2 : (st.pushKs (t.keys.map (·.key))).lastArrayTablesIndex = st.lastArrayTablesIndex := rfl
  have e3 : (st.pushKs (t.keys.map (·.key))).map = st.map := rfl
  have e4 : (st.pushKs (t.keys.map (·.key))).heap = st.heap := rfl
  rw [e1, e2, e3, e4, a1, a2, hplace]
  simp only [Out.bind_eq, Out.bind, hkey]
  cases vl <;> exact ⟨_, rfl⟩

theorem path_same (D : Sections) {p : List Key} {ks : List Str} (h : D.path p ks = p) : ks = [] := by
  cases ks with
  | nil => rfl
  | cons k ks =>
    rw [path] at h
    have h1 := (D.path_up ks (D.enter (p ++ [.str k]))).length_le
    have h2 : (p ++ [Key.str k]).length ≤ (D.enter (p ++ [.str k])).length := by
      unfold enter
      split <;> simp
    rw [h] at h1
    simp at h2
    omega

/-- The header of a table which can not be placed does not stop the library, unless it leads into an array of tables that is shut. -/
theorem SimE.std_calm {D : Sections} {st : PState} {E : List ParseError} (h : D.SimE E st) {w1 w2 : Str} {t : Table} {c : Option Str} (hw : (TableType.std t).wf)
    (hap : D.apart t.names) (hcl : D.clear t.names) (hs : ¬ D.shut (.table w1 (.std t) w2 c)) (hr : ¬ D.regular (.table w1 (.std t) w2 c)) :
    ∃ x, stdTableAct t (st.pushKs (t.keys.map (·.key))) = .ok x := by
  obtain ⟨cts0, cis0, A0, b0, hO0, hT0, hop⟩ := h.stack
  have hN := wf_names hw
  have g := h.good
  have hwr : ∀ u ∈ cts0, NamesWf u.table.names := fun u hu => (hO0.counted g u hu).2.2.2
  have hmem : ∀ u ∈ cts0, u.table.names ∈ D.opened := fun u hu => by rw [hop]; exact List.mem_map_of_mem hu
  have hall : ∀ a ∈ onWay t.names, a ≠ t.names → D.count (D.target a) ≠ none → a ∈ D.opened := fun a ha hne hca =>
    Classical.byContradiction fun hn => hs ⟨hap, a, ha, hne, hca, hn⟩
  by_cases hin : t.names ∈ D.opened
  · -- it has just been opened
    have hhere : D.here = D.path [] t.names := by
      refine Classical.byContradiction fun hn => hr ⟨fun a ha hc => ?_, fun _ => hn, hap, hcl⟩
      by_cases e : a = t.names
      · rw [e]; exact hin
      · exact hall a ha e hc
    have hNA : t.names <+: A0 := by
      rw [hop, List.mem_map] at hin
      obtain ⟨u, hu, hun⟩ := hin
      rw [← hun]; exact (hO0.counted g u hu).2.1
    obtain ⟨y, hy⟩ := hNA
    have hpA := (hO0.path g).1
    have hpy : D.path (D.path [] t.names) y = b0 := by rw [← path_append, hy]; exact hpA
    have hup := D.path_up y (D.path [] t.names)
    rw [hpy] at hup
    rcases hT0.top with ⟨t0, ks0, _, _, hk0, _, _, _, h4⟩ | ⟨h1, h2, h3, _⟩
    · rw [hhere] at h4
      have := hup.length_le
      rw [h4] at this
      have h5 := List.length_pos_iff.mpr hk0
      simp [Tomllib.names] at this
      omega
    · rw [h3] at hhere
      rw [← hhere] at hpy
      have hy0 := D.path_same hpy
      subst hy0
      rw [List.append_nil] at hy
      cases hO0 with
      | nil => exact absurd hy hN.1
      | @snoc ts is A b u ks n ho hwu hn hne hb hk =>
        have hun : t.names = u.names := hy
        have hAN : A ≠ t.names := by rw [hun, hn]; simp [hne]
        have hpop : stdPop (.std t) st.lastArrayTables st.lastArrayTablesIndex = (ts, is) := by
          rw [h1, h2, stdPop]
          have he : equalKeyLength (.std t) (ts ++ [.arr u]) = true := by
            unfold equalKeyLength
            rw [List.getLast?_concat]
            have := congrArg List.length hun
            simp [Table.names] at this
            simp [TableType.table, this]
          simp only [he, Bool.or_true, if_true, List.dropLast_concat]
          rw [sameTop_false g hw ho hAN]
          simp only [Bool.false_eq_true, if_false]
          by_cases hts : ts = []
          · subst hts
            rfl
          · have hv := List.getLast?_eq_some_getLast hts
            obtain ⟨v, hv1, hv2, _⟩ := ho.last _ hv
            have hvm : ts.getLast hts ∈ ts := List.getLast_mem hts
            have hsub := (isSub_iff (t := .std t) (u := ts.getLast hts) hN.2 (hwr _ (by simp [hvm])) (hmem _ (by simp [hvm])) hap).mpr (by
              rw [hv1]
              show v.names <+: t.names
              rw [hv2, hun, hn]; exact List.prefix_append _ _)
            obtain ⟨l, hl⟩ : ∃ l, ts.length = l + 1 := ⟨ts.length - 1, by have := List.length_pos_iff.mpr hts; omega⟩
            rw [hl, popLoop, hv]
            simp only [hsub, if_true]
        exact h.std_again hw hcl hpop ho (by rw [hun]; exact hn) hne hk
  · have hc : D.count (D.target t.names) ≠ none := by
      refine fun hc0 => hr ⟨fun a ha hc => ?_, fun hi => absurd hi hin, hap, hcl⟩
      by_cases e : a = t.names
      · rw [e] at hc; exact absurd hc0 hc
      · exact hall a ha e hc
    have hpop := stdPop_eq g hw hO0 hT0 hop hap hin
    obtain ⟨cts, cis, A, b, rest, p1, hO, p3, p4, p5, _⟩ := hO0.pop (fun top => (TableType.std t).isSubtableOf top)
    rw [p1] at hpop
    obtain ⟨hfil, ks, hks⟩ := hO.keep g hw hop hap p3 p4 hwr p5
    have hks' : t.names = A ++ ks := hks.symm
    have hne : ks ≠ [] := by
      rintro rfl
      rw [List.append_nil] at hks'
      have hA : A ≠ [] := by rw [← hks']; exact hN.1
      have hts : cts ≠ [] := fun h => hA (hO.wf.2.2.2.mpr h)
      have hu := List.getLast?_eq_some_getLast hts
      obtain ⟨u', hu1, hu2, _⟩ := hO.last _ hu
      have := hmem (cts.getLast hts) (by rw [p3]; simp)
      rw [hu1] at this
      refine hin ?_
      rw [hks', ← hu2]; exact this
    have hnopen : ∀ x y, x ≠ [] → x ++ y = ks → A ++ x ∉ D.opened := by
      intro x y hx e hm
      have : A ++ x ∈ D.opened.filter fun P => P.isPrefixOf t.names := by
        rw [List.mem_filter, List.isPrefixOf_iff_prefix]
        exact ⟨hm, y, by rw [List.append_assoc, e, hks']⟩
      have h' : A ++ x ∈ cts.map (·.table.names) := by rw [← hfil]; exact this
      rw [List.mem_map] at h'
      obtain ⟨u, hu, e'⟩ := h'
      have := (hO.counted g u hu).2.1.length_le
      rw [e'] at this
      simp at this
      have := List.length_pos_iff.mpr hx
      omega
    have hon : ∀ x y, x ≠ [] → y ≠ [] → x ++ y = ks → D.count (D.target (A ++ x)) = none := by
      intro x y hx hy e
      refine Classical.byContradiction fun hn => hnopen x y hx e (hall (A ++ x) (mem_onWay.mpr ⟨by simp [hx], y, by rw [List.append_assoc, e, hks']⟩) (by rw [hks', ← e]; simp [hy]) hn)
    have hTt : D.target t.names = b ++ Tomllib.names ks := by rw [hks']; exact target_free (hO.path g).1 hon ks.length ks [] rfl hne (by simp)
    rw [hTt] at hc
    cases e : D.count (b ++ Tomllib.names ks) with
    | none => exact absurd e hc
    | some n => exact h.std_again hw hcl hpop hO hks' hne e

/-- Headers which the library can not place, and at which it does not panic. -/
theorem RSim.reopen {R : Account} {st : PState} (h : RSim R st) {w1 w2 : Str} {t : TableType} {c : Option Str} (hw : t.wf) (hap : R.doc.apart t.table.names) (hcl : R.doc.clear t.table.names)
    (hi : ∀ u, t = .arr u → ∀ a ∈ onWay u.names, a ≠ u.names → inlined (R.doc.valueAt (R.doc.target a)) = false)
    (hs : ¬ R.doc.shut (.table w1 t w2 c)) (hr : ¬ R.doc.regular (.table w1 t w2 c)) :
    (∃ st', (ET.table w1 t w2 c).eff st = .ok st') ∧ ¬ R.doc.crashes (.table w1 t w2 c) := by
  have hx : ∃ E lt ae, R.doc.SimE E { st with arrayError := ae, lastTable := lt } := by
    unfold RSim at h
    split at h
    · obtain ⟨_, _, lt, h3⟩ := h
      exact ⟨_, lt, false, h3⟩
    · exact ⟨_, st.lastTable, st.arrayError, h⟩
  obtain ⟨E, lt, ae, hx⟩ := hx
  cases t with
  | std t =>
    refine ⟨?_, id⟩
    obtain ⟨x, h1⟩ := hx.std_calm hw hap hcl hs hr
    have hfl := stdTableAct_flags t (st.pushKs (t.keys.map (·.key))) ae lt
    have hfl : (stdTableAct t (PState.pushKs { st with arrayError := ae, lastTable := lt } (t.keys.map (·.key)))).map' (·.1.errors) = _ := hfl
    rw [h1] at hfl
    cases hb : stdTableAct t (st.pushKs (t.keys.map (·.key))) with
    | ok y => exact ⟨y.1, by simp only [ET.eff, TableType.eff, hb, Out.bind]⟩
    | fuel => rw [hb] at hfl; simp [Out.map'] at hfl
    | panic z => rw [hb] at hfl; simp [Out.map'] at hfl
  | arr t =>
    have hN := wf_names hw
    have hall : t.names ∉ R.doc.opened → ∀ a ∈ onWay t.names, a ≠ t.names → R.doc.count (R.doc.target a) ≠ none → a ∈ R.doc.opened ∧ (R.doc.opened.getLastD []).isPrefixOf t.names := by
      intro hin a ha hne hca
      refine ⟨Classical.byContradiction fun hn => hs ⟨hap, hin, a, ha, hne, hca, .inl hn⟩, Classical.byContradiction fun hn => hs ⟨hap, hin, a, ha, hne, hca, .inr hn⟩⟩
    obtain ⟨cts0, cis0, A0, b0, hO0, hT0, hop⟩ := hx.stack
    have g := hx.good
    have hin : t.names ∉ R.doc.opened := by
      intro hin
      refine hr ⟨fun a ha => ⟨fun hc => ?_, fun hne => hi t rfl a ha hne⟩, .inl hin, hap, hcl⟩
      obtain ⟨ha1, ha2⟩ := mem_onWay.mp ha
      rw [hop, List.mem_map] at hin
      obtain ⟨u, hu, hun⟩ := hin
      have hA := (hO0.counted g u hu).2.1
      rw [hun] at hA
      rw [hop]
      exact hO0.all g a ha1 (ha2.trans hA) hc
    have hc : R.doc.count (R.doc.target t.names) ≠ none := by
      intro hc0
      refine hr ⟨fun a ha => ⟨fun hc => ?_, fun hne => hi t rfl a ha hne⟩, .inr ?_, hap, hcl⟩
      · by_cases e : a = t.names
        · rw [e] at hc; exact absurd hc0 hc
        · exact (hall hin a ha e hc).1
      · by_cases hl : (R.doc.opened.getLastD []).isPrefixOf t.names = true
        · exact .inr hl
        · left
          intro P hP hpre
          have hP' := hP
          rw [hop, List.mem_map] at hP'
          obtain ⟨u, hu, rfl⟩ := hP'
          obtain ⟨q1, q2, q3, q4⟩ := hO0.counted g u hu
          refine hl (hall hin _ (mem_onWay.mpr ⟨q3, List.isPrefixOf_iff_prefix.mp hpre⟩) (fun e => ?_) q1).2
          rw [← e] at hin
          exact hin hP
    obtain ⟨⟨x, h1⟩, hcr⟩ := hx.arr_again hw hap hcl hin hc hs
    refine ⟨?_, hcr⟩
    have hfl := arrayTableAct_flags t (st.pushKs (t.keys.map (·.key))) ae lt
    have hfl : (arrayTableAct t (PState.pushKs { st with arrayError := ae, lastTable := lt } (t.keys.map (·.key)))).map' (·.1.errors) = _ := hfl
    rw [h1] at hfl
    cases hb : arrayTableAct t (st.pushKs (t.keys.map (·.key))) with
    | ok y => exact ⟨y.1, by simp only [ET.eff, TableType.eff, hb, Out.bind]⟩
    | fuel => rw [hb] at hfl; simp [Out.map'] at hfl
    | panic z => rw [hb] at hfl; simp [Out.map'] at hfl

end Sections
end Tomllib
