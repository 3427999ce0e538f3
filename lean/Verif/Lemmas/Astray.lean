import Verif.Lemmas.Reopen
/-!
# Headers that begin with a stray name
-/

namespace Tomllib

/-- Where there is nothing, no names are added. -/
theorem implicitLoop_none : ∀ (ks : List Str) (m : KMap) (b : List Key) (first : Bool), PathWf (b ++ names ks) → (∀ x k y, x ++ k :: y = ks → KP m (b ++ names x) = none) →
    implicitLoop ks m (parP b) first = .ok m
  | [], _, _, _, _, _ => rfl
  | k :: ks, m, b, first, hw, hn => by
    have h0 : m.get? (parP b) = none := by simpa [names, KP] using hn [] k ks rfl
    have hwb : PathWf b := hw.left
    rw [implicitLoop, h0]
    dsimp only
    split
    · rfl
    have hkey : (if parP b ≠ root then parP b ++ lit% "." ++ k else k) = parP (b ++ [.str k]) := by
      by_cases h0 : b = []
      · subst h0; simp [parP, keyOf, Key.add, dotted]
      · rw [parP_ne h0, if_pos (keyOf_ne_root hwb), parP_ne (by simp), ← dotP_add hwb, dotP, if_neg h0]
    rw [hkey]
    simp only [Bool.false_eq_true, if_false]
    exact implicitLoop_none ks m (b ++ [.str k]) first (by simpa [names] using hw) fun x k' y e => by
      have := hn (k :: x) k' y (by simp [e])
      simpa [names] using this

namespace Sections

/-- There is nothing below a name that has not been used. -/
theorem Good.unused {D : Sections} {K : List Key → Option HashValue} {h : Heap} (g : D.Good K h) {k : Str} (hk : ([], k) ∉ D.names) {q : List Str} (hq : PathWf (Tomllib.names (k :: q))) :
    K (Tomllib.names (k :: q)) = none ∧ D.valueAt (Tomllib.names (k :: q)) = none ∧ D.count (Tomllib.names (k :: q)) = none := by
  have hns : ∀ r, D.Spot r → ¬ ([.str k] <+: r) := by
    rintro r hr ⟨z, rfl⟩
    exact hk ((g.closed _ hr).str [] k z (by simp))
  have hpre : [.str k] <+: Tomllib.names (k :: q) := ⟨Tomllib.names q, by simp [Tomllib.names]⟩
  have hno := g.noVal (p := []) ⟨by simp, by simp⟩ ((g.slot [] trivial).val_tab (.inl rfl))
  have hv : D.valueAt (Tomllib.names (k :: q)) = none := by
    rw [valueAt_none]
    intro e he hpe
    rcases prefix_or (b := []) (k := k) (q := Tomllib.names q) (by simpa [Tomllib.names] using hpe) with h1 | h1
    · exact absurd h1 (hno e he)
    · exact absurd h1 (hns _ (.inl ⟨e, he, rfl⟩))
  have hc : D.count (Tomllib.names (k :: q)) = none := by
    rw [count_none]
    intro e he h1
    exact hns e.1 (.inr (.inr (.inl ⟨e, he, rfl⟩))) (by rw [h1]; exact hpre)
  refine ⟨(g.slot _ hq).none hv hc ?_, hv, hc⟩
  rintro (h1 | h1 | ⟨e, he, h1⟩ | ⟨e, he, h1⟩)
  · simp [Tomllib.names] at h1
  · exact hns _ (.inr (.inl h1)) hpre
  · have h2 := congrArg List.getLast? h1
    rw [List.getLast?_concat] at h2
    simp only [Tomllib.names, List.map_cons] at h2
    rw [List.getLast?_eq_some_getLast (by simp : Key.str k :: List.map Key.str q ≠ [])] at h2
    simp only [Option.some.injEq] at h2
    have := List.getLast_mem (by simp : Key.str k :: List.map Key.str q ≠ [])
    rw [h2] at this
    simp at this
  · exact hns _ (.inr (.inr (.inr ⟨e, he, h1⟩))) hpre

/-- No open array of tables begins with a name that has not been used. -/
theorem Open.unused {D : Sections} {K : List Key → Option HashValue} {h : Heap} (g : D.Good K h) {cts : List TableType} {cis : List Nat} {A : List Str} {b : List Key} (hO : D.Open cts cis A b)
    {k : Str} (hk : ([], k) ∉ D.names) {q : List Str} {P : List Str} (hP : P ≠ []) (hpA : P <+: A) : ¬ P <+: k :: q := by
  intro hp
  cases P with
  | nil => exact hP rfl
  | cons j P =>
    obtain ⟨z, hz⟩ := hp
    obtain ⟨y, rfl⟩ := hpA
    simp at hz
    have := (hO.path g).2.2 ([], j) (by simp [way])
    rw [hz.1] at this
    exact hk this

/-- What is not clear. -/
theorem unclear {D : Sections} {N : List Str} (hcl : ¬ D.clear N) : ∃ k k' q, N = k :: k' :: q ∧ k ∈ D.stray ∧ ([], k) ∉ D.names := by
  unfold Sections.clear at hcl
  match N, hcl with
  | [], hcl => simp at hcl
  | [_], hcl => simp at hcl
  | k :: k' :: q, hcl =>
    simp at hcl
    exact ⟨k, k', q, rfl, hcl.1, hcl.2⟩

/-- The names on the way are not added below a stray name. -/
theorem Good.astray {D : Sections} {m : KMap} {h : Heap} (g : D.Good (KP m) h) {k k' : Str} {q : List Str} (hk : k ∈ D.stray) (hn : ([], k) ∉ D.names) (hw : PathWf (Tomllib.names (k :: k' :: q))) :
    ∃ v l, KP m [] = some ⟨v, .keys l⟩ ∧ k ∈ l ∧ implicitLoop (k :: k' :: q) m root true = .ok (m.insert root ⟨v, .keys l⟩) := by
  obtain ⟨v, l, e1, e2, _⟩ := (g.slot [] trivial).tab (.inl rfl)
  unfold Lists at e2
  rw [if_pos rfl] at e2
  have hkl : k ∈ l := (e2.2 k).mpr (.inr hk)
  have hr : parP [] = root := by simp [parP]
  have hroot : m.get? root = some ⟨v, .keys l⟩ := by rw [← hr]; exact e1
  have hins : insertUniq l k = (l, false) := by simp [insertUniq, hkl]
  refine ⟨v, l, e1, hkl, ?_⟩
  rw [implicitLoop, hroot]
  simp only [hins, Bool.false_eq_true, if_false, ne_eq, not_true_eq_false, reduceCtorEq]
  have hpk : k = parP [.str k] := by simp [parP, keyOf, Key.add, dotted]
  conv => lhs; rw [hpk]
  refine implicitLoop_none _ _ _ _ (by simpa [Tomllib.names] using hw) fun x j y e => ?_
  have hwx : PathWf (Tomllib.names (k :: x)) := by
    rw [← e, ← List.cons_append, names_append] at hw
    exact hw.left
  have hk' : [Key.str k] ++ Tomllib.names x = Tomllib.names (k :: x) := by simp [Tomllib.names]
  rw [hk', ← hr, KP_insert (p := []) trivial hwx, if_neg (by simp [Tomllib.names])]
  exact (g.unused hn hwx).1

/-- The header of an array of tables that begins with a stray name, and has other names. -/
theorem SimE.arr_astray {D : Sections} {st : PState} {E : List ParseError} (h : D.SimE E st) {t : Table} (hw : (TableType.arr t).wf) (hap : D.apart t.names) (hcl : ¬ D.clear t.names) :
    ∃ x, arrayTableAct t (st.pushKs (t.keys.map (·.key))) = .panic x := by
  obtain ⟨cts0, cis0, A0, b0, hO0, hT0, hop⟩ := h.stack
  obtain ⟨a1, a2⟩ := arrPop hO0 hT0
  have hN := wf_names hw
  have g := h.good
  obtain ⟨k, k', q, hks, hst, hnn⟩ := unclear hcl
  have hwk : PathWf (Tomllib.names (k :: k' :: q)) := NamesWf.path (by
    have := hN.2
    rw [show (TableType.arr t).table.names = _ from hks] at this
    exact this)
  have hno : ∀ P ∈ D.opened, ¬ P <+: t.names := by
    intro P hP
    rw [hop, List.mem_map] at hP
    obtain ⟨u, hu, rfl⟩ := hP
    obtain ⟨_, q2, q3, _⟩ := hO0.counted g u hu
    rw [hks]
    exact hO0.unused g hnn q3 q2
  have hin : t.names ∉ D.opened := fun hm => hno _ hm (List.prefix_refl _)
  obtain ⟨cts, cis, A, b, hO, hpre, hAN, hfil, hpl⟩ := arrPlace_new (m := st.map) (h := st.heap) g hw hO0 hop hap hin (.inl fun P hP hp => hno P hP (List.isPrefixOf_iff_prefix.mp hp))
  have hA : A = [] := by
    refine Classical.byContradiction fun hA => ?_
    rw [hks] at hpre
    exact hO.unused g hnn hA (List.prefix_refl _) hpre
  have hcts : cts = [] := hO.wf.2.2.2.mp hA
  have hb : b = [] := hO.wf.2.2.1.mp hA
  have hcis : cis = [] := by
    have := hO.length
    rw [hcts] at this
    exact List.length_eq_zero_iff.mp this
  subst hA; subst hcts; subst hb; subst hcis
  obtain ⟨v, l, r1, r2, r3⟩ := g.astray hst hnn hwk
  have hr : parP [] = root := by simp [parP]
  have hadd : addImplicitTables st.map st.heap [] [] (.arr t) = .ok (st.map.insert root ⟨v, .keys l⟩) := by
    rw [addImplicitTables_eq g hO (t := .arr t) (ks := k :: k' :: q) (by rw [List.nil_append]; exact hks), hr, r3]
  have hpush : arrPush st.map st.heap (.arr t) [] [] = .ok (st.map.insert root ⟨v, .keys l⟩, [.arr t], [0]) := by rw [arrPush, hadd]; rfl
  have hK : ∀ p, PathWf p → KP (st.map.insert root ⟨v, .keys l⟩) p = KP st.map p := by
    intro p hp
    rw [← hr, KP_insert (p := []) trivial hp]
    split
    next e => subst e; exact r1.symm
    · rfl
  have hgetk : (st.map.insert root ⟨v, .keys l⟩).get? k = none := by
    have hpk : k = parP [.str k] := by simp [parP, keyOf, Key.add, dotted]
    have hwk1 : PathWf (Tomllib.names [k]) := by
      have : k :: k' :: q = [k] ++ k' :: q := rfl
      rw [this, names_append] at hwk
      exact hwk.left
    have := hK (Tomllib.names [k]) hwk1
    rw [(g.unused hnn hwk1).1] at this
    conv => lhs; rw [hpk]
    exact this
  have hgetr : (st.map.insert root ⟨v, .keys l⟩).get? root = some ⟨v, .keys l⟩ := by
    have := hK [] trivial
    rw [r1] at this
    rw [← this, KP, hr]
  have hplace : arrPlace st.map st.heap (.arr t) cts0 cis0 = .ok (st.map.insert root ⟨v, .keys l⟩, [.arr t], [0]) := by
    rcases hpl with e | e
    · rw [e, hpush]
    · rw [e, arrAgain, hpush]
      have hpar := (hO.chain g).parentNew hw (ks := k :: k' :: q) (by rw [List.nil_append]; exact hks) (by simp) 0
      have hpar : getKeyParent [.arr t] [0] = .ok (keyOf [] (Tomllib.names (k :: k' :: q))) := hpar
      have hcon : (st.map.insert root ⟨v, .keys l⟩).contains (keyOf [] (Tomllib.names (k :: k' :: q))) = false := by
        unfold SMap.contains
        rw [KP_ne (by simp [Tomllib.names]), hK _ hwk, (g.unused hnn hwk).1]; rfl
      simp only [Out.bind_eq, Out.bind, hpar, hcon, Bool.false_eq_true, if_false]
  have hkr : k ≠ root := (hwk.names k (by simp [Tomllib.names])).ne_root
  have hkey : getArrayTableKey (st.map.insert root ⟨v, .keys l⟩) st.heap [.arr t] [0] = .panic .keyNotInMap := by
    have hlk : lastKeys t = root :: k :: k' :: q := by
      show root :: t.names = _
      rw [hks]
    rw [getArrayTableKey, arrayTableKeyLoop, hlk, List.drop_zero, arrKeyInner]
    simp only [List.nil_append, hgetr, r2, true_or, if_true, arrKeyInner, hgetk, Out.bind_eq, Out.bind]
  unfold arrayTableAct
  have hlen : (st.pushKs (t.keys.map (·.key))).keychain.length = t.keys.length := by simp [PState.pushKs, h.kc]
  simp only [hlen, Nat.lt_irrefl, if_false, Nat.sub_self, List.take_zero]
  have e1 : (st.pushKs (t.keys.map (·.key))).lastArrayTables = st.lastArrayTables := rfl
  have e2 : (st.pushKs (t.keys.map (·.key))).lastArrayTablesIndex = st.lastArrayTablesIndex := rfl
  have e3 : (st.pushKs (t.keys.map (·.key))).map = st.map := rfl
  have e4 : (st.pushKs (t.keys.map (·.key))).heap = st.heap := rfl
  rw [e1, e2, e3, e4, a1, a2, hplace]
  simp only [Out.bind_eq, Out.bind, hkey]
  exact ⟨_, rfl⟩

/-- The header of a table that begins with a stray name, and has other names: it is read. -/
theorem SimE.std_astray {D : Sections} {st : PState} {E : List ParseError} (h : D.SimE E st) {w1 w2 : Str} {t : Table} {c : Option Str} (hw : (TableType.std t).wf) (hap : D.apart t.names) (hcl : ¬ D.clear t.names) :
    (∃ x, stdTableAct t (st.pushKs (t.keys.map (·.key))) = .ok x) ∧ ¬ D.shut (.table w1 (.std t) w2 c) := by
  obtain ⟨cts0, cis0, A0, b0, hO0, hT0, hop⟩ := h.stack
  have hN := wf_names hw
  have g := h.good
  have hwr : ∀ u ∈ cts0, NamesWf u.table.names := fun u hu => (hO0.counted g u hu).2.2.2
  obtain ⟨k, k', q, hks, hst, hnn⟩ := unclear hcl
  have hwk : PathWf (Tomllib.names (k :: k' :: q)) := NamesWf.path (by
    have := hN.2
    rw [show (TableType.std t).table.names = _ from hks] at this
    exact this)
  have hwx : ∀ x y, k :: x ++ y = k :: k' :: q → PathWf (Tomllib.names (k :: x)) := by
    intro x y e
    rw [← e, names_append] at hwk
    exact hwk.left
  have hno : ∀ P ∈ D.opened, ¬ P <+: t.names := by
    intro P hP
    rw [hop, List.mem_map] at hP
    obtain ⟨u, hu, rfl⟩ := hP
    obtain ⟨_, q2, q3, _⟩ := hO0.counted g u hu
    rw [hks]
    exact hO0.unused g hnn q3 q2
  have hin : t.names ∉ D.opened := fun hm => hno _ hm (List.prefix_refl _)
  have hpop := stdPop_eq g hw hO0 hT0 hop hap hin
  obtain ⟨cts, cis, A, b, rest, p1, hO, p3, p4, p5, _⟩ := hO0.pop (fun top => (TableType.std t).isSubtableOf top)
  rw [p1] at hpop
  obtain ⟨_, hpre⟩ := hO.keep g hw hop hap p3 p4 hwr p5
  have hA : A = [] := by
    refine Classical.byContradiction fun hA => ?_
    rw [show (TableType.std t).table.names = _ from hks] at hpre
    exact hO.unused g hnn hA (List.prefix_refl _) hpre
  have hcts : cts = [] := hO.wf.2.2.2.mp hA
  have hb : b = [] := hO.wf.2.2.1.mp hA
  have hcis : cis = [] := by
    have := hO.length
    rw [hcts] at this
    exact List.length_eq_zero_iff.mp this
  subst hA; subst hcts; subst hb; subst hcis
  -- there is nothing on the way
  have hcx : ∀ x y, x ≠ [] → x ++ y = k :: k' :: q → KP st.map (Tomllib.names x) = none ∧ D.count (Tomllib.names x) = none := by
    intro x y hx e
    cases x with
    | nil => exact absurd rfl hx
    | cons j x =>
      have hj : j = k := by simp at e; exact e.1
      subst hj
      have := g.unused hnn (hwx x y e)
      exact ⟨this.1, this.2.2⟩
  have hpath : D.path [] [] = [] := rfl
  have htf : ∀ n (x y : List Str), x.length = n → x ≠ [] → x ++ y = k :: k' :: q → D.target x = Tomllib.names x := by
    intro n
    induction n using Nat.strongRecOn with
    | ind n ih =>
      intro x y hn hx e
      have := target_append (D := D) (A := []) (b := []) hpath hx (fun x' y' hx' hy' e' => by
        rw [List.nil_append]
        exact (hcx x' (y' ++ y) hx' (by rw [← List.append_assoc, e', e])).2)
      simpa using this
  refine ⟨?_, ?_⟩
  · obtain ⟨v, l, r1, r2, r3⟩ := g.astray hst hnn hwk
    have hr : parP [] = root := by simp [parP]
    have hadd : addImplicitTables st.map st.heap [] [] (.std t) = .ok (st.map.insert root ⟨v, .keys l⟩) := by
      rw [addImplicitTables_eq g hO (t := .std t) (ks := k :: k' :: q) (by rw [List.nil_append]; exact hks), hr, r3]
    have hK : ∀ p, PathWf p → KP (st.map.insert root ⟨v, .keys l⟩) p = KP st.map p := by
      intro p hp
      rw [← hr, KP_insert (p := []) trivial hp]
      split
      next e => subst e; exact r1.symm
      · rfl
    obtain ⟨v', c1, c2⟩ := TChain.std st.heap (hO.chain g) hw (ks := k :: k' :: q) (by rw [List.nil_append]; exact hks) (by simp) [] 0
    obtain rfl := c2 (fun x y hx e => by
      unfold keyHasValue
      rw [KP_ne (by simp [names_ne hx]), List.nil_append, (hcx x y hx e).1])
    have hl1 : (k :: k' :: q).length ≠ 1 := by simp
    rw [if_neg hl1] at c1
    simp only [List.nil_append] at c1
    have hdl : (k :: k' :: q).dropLast ≠ [] := by simp
    have hsp : (k :: k' :: q).dropLast ++ [(k :: k' :: q).getLast (by simp)] = k :: k' :: q := List.dropLast_concat_getLast _
    have hwd : PathWf (Tomllib.names (k :: k' :: q).dropLast) := by
      have hwk' := hwk
      rw [← hsp, names_append] at hwk'
      exact hwk'.left
    have hkd := (hcx _ _ hdl hsp).1
    have hck : stdCheck st.map st.heap (.std t) [] [] = .ok (false, keyOf [] (Tomllib.names (k :: k' :: q)), keyOf [] (Tomllib.names (k :: k' :: q).dropLast)) := by
      unfold stdCheck
      have hs0 : sameTop (.std t) [] = false := rfl
      rw [hs0]
      simp only [Bool.false_eq_true, if_false, List.nil_append, Out.bind_eq]
      have hkh : keyHasChildrenWithValues st.map st.heap (keyOf [] (Tomllib.names (k :: k' :: q).dropLast)) = .ok false := by
        unfold keyHasChildrenWithValues
        rw [if_neg (keyOf_ne_root hwd), KP_ne (names_ne hdl), hkd]
      have htd : tableDefined st.map st.heap (keyOf [] (Tomllib.names (k :: k' :: q))) = false := by
        unfold tableDefined
        rw [KP_ne (by simp [Tomllib.names]), (hcx (k :: k' :: q) [] (by simp) (by simp)).1]
      rw [c1]
      simp only [Out.bind, Bool.not_true, Bool.false_eq_true, if_false, hkh, htd, Bool.or_self]
    have hats : addToTableSet (st.map.insert root ⟨v, .keys l⟩) [] [] (t.names.getLastD []) = .ok (st.map.insert root ⟨v, .keys l⟩) := by
      refine addToTableSet_none g ?_ hO (fun n hn => ?_) _
      · rw [← hr]; exact h.only.insert (p := []) trivial _
      · rw [List.dropLast_nil] at hn ⊢
        rw [hK [] trivial]
        exact (g.slot [] trivial).arr n hn
    have hpar : (stdEntry (st.map.insert root ⟨v, .keys l⟩) st.heap.length (keyOf [] (Tomllib.names (k :: k' :: q)))).get? (keyOf [] (Tomllib.names (k :: k' :: q).dropLast)) = none := by
      have hTne : Tomllib.names (k :: k' :: q) ≠ [] := by simp [Tomllib.names]
      have hse : KP (stdEntry (st.map.insert root ⟨v, .keys l⟩) st.heap.length (keyOf [] (Tomllib.names (k :: k' :: q)))) (Tomllib.names (k :: k' :: q).dropLast) =
          KP (st.map.insert root ⟨v, .keys l⟩) (Tomllib.names (k :: k' :: q).dropLast) := by
        have hne : Tomllib.names (k :: k' :: q) ≠ Tomllib.names (k :: k' :: q).dropLast := fun e => by
          have := congrArg List.length e
          simp [Tomllib.names] at this
        unfold stdEntry
        split <;> rw [← parP_ne hTne, KP_insert hwk hwd, if_neg hne]
      rw [KP_ne (names_ne hdl), hse, hK _ hwd, hkd]
    unfold stdTableAct
    have hlen : (st.pushKs (t.keys.map (·.key))).keychain.length = t.keys.length := by simp [PState.pushKs, h.kc]
    simp only [hlen, Nat.lt_irrefl, if_false]
    have e1 : (st.pushKs (t.keys.map (·.key))).lastArrayTables = st.lastArrayTables := rfl
    have e2 : (st.pushKs (t.keys.map (·.key))).lastArrayTablesIndex = st.lastArrayTablesIndex := rfl
    have e3 : (st.pushKs (t.keys.map (·.key))).map = st.map := rfl
    have e4 : (st.pushKs (t.keys.map (·.key))).heap = st.heap := rfl
    have e5 : (List.map (fun x => x.key) t.keys).getLastD [] = t.names.getLastD [] := rfl
    rw [e1, e2, e3, e4, e5, hpop, hck]
    simp only [Out.bind_eq, Out.bind, Bool.false_eq_true, if_false, hadd, hats]
    unfold stdParent
    rw [hpar]
    exact ⟨_, rfl⟩
  · rintro ⟨_, a, ha, _, hc, _⟩
    obtain ⟨ha1, y, hy⟩ := mem_onWay.mp ha
    rw [hks] at hy
    rw [htf a.length a y rfl ha1 hy] at hc
    exact hc (hcx a y ha1 hy).2

/-- Headers that begin with a stray name. -/
theorem RSim.astray {R : Account} {st : PState} (h : RSim R st) {w1 w2 : Str} {t : TableType} {c : Option Str} (hw : t.wf) (hap : R.doc.apart t.table.names) (hcl : ¬ R.doc.clear t.table.names) :
    (R.doc.astray (.table w1 t w2 c) ∧ ∃ x, (ET.table w1 t w2 c).eff st = .panic x) ∨
    ((∃ st', (ET.table w1 t w2 c).eff st = .ok st') ∧ ¬ R.doc.crashes (.table w1 t w2 c) ∧ ¬ R.doc.astray (.table w1 t w2 c)) := by
  have hx : ∃ E lt ae, R.doc.SimE E { st with arrayError := ae, lastTable := lt } := by
    unfold RSim at h
    split at h
    · obtain ⟨_, _, lt, h3⟩ := h
      exact ⟨_, lt, false, h3⟩
    · exact ⟨_, st.lastTable, st.arrayError, h⟩
  obtain ⟨E, lt, ae, hx⟩ := hx
  cases t with
  | std t =>
    refine .inr ⟨?_, id, id⟩
    obtain ⟨⟨x, h1⟩, _⟩ := hx.std_astray (w1 := w1) (w2 := w2) (c := c) hw hap hcl
    have hfl := stdTableAct_flags t (st.pushKs (t.keys.map (·.key))) ae lt
    have hfl : (stdTableAct t (PState.pushKs { st with arrayError := ae, lastTable := lt } (t.keys.map (·.key)))).map' (·.1.errors) = _ := hfl
    rw [h1] at hfl
    cases hb : stdTableAct t (st.pushKs (t.keys.map (·.key))) with
    | ok y => exact ⟨y.1, by simp only [ET.eff, TableType.eff, hb, Out.bind]⟩
    | fuel => rw [hb] at hfl; simp [Out.map'] at hfl
    | panic z => rw [hb] at hfl; simp [Out.map'] at hfl
  | arr t =>
    refine .inl ⟨hcl, ?_⟩
    obtain ⟨x, h1⟩ := hx.arr_astray hw hap hcl
    have hfl := arrayTableAct_flags t (st.pushKs (t.keys.map (·.key))) ae lt
    have hfl : (arrayTableAct t (PState.pushKs { st with arrayError := ae, lastTable := lt } (t.keys.map (·.key)))).map' (·.1.errors) = _ := hfl
    rw [h1] at hfl
    cases hb : arrayTableAct t (st.pushKs (t.keys.map (·.key))) with
    | ok y => rw [hb] at hfl; simp [Out.map'] at hfl
    | fuel => rw [hb] at hfl; simp [Out.map'] at hfl
    | panic z => exact ⟨z, by simp only [ET.eff, TableType.eff, hb, Out.bind]⟩

end Sections
end Tomllib
