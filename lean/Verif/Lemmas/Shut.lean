import Verif.Lemmas.Crash
/-!
# Headers into arrays of tables that are not open any more
-/

namespace Tomllib
namespace Sections

/-- All arrays of tables above an open one are open. -/
theorem Open.all {D : Sections} {K : List Key → Option HashValue} {h : Heap} (g : D.Good K h) {ts : List TableType} {is : List Nat} {A : List Str} {b : List Key} (ho : D.Open ts is A b) :
    ∀ a, a ≠ [] → a <+: A → D.count (D.target a) ≠ none → a ∈ ts.map (·.table.names) := by
  induction ho with
  | nil => intro a ha hp; exact absurd (List.prefix_nil.mp hp) ha
  | @snoc ts is A b t ks c ho hw hn hne hb hk ih =>
    intro a ha hp hc
    have hwb := (Open.snoc t ks c ho hw hn hne hb hk).wf.2.1.left
    have hbt := Open.between g hwb hb
    have hpa : D.path [] A = b := (ho.path g).1
    rw [hn] at hp
    rcases Nat.lt_or_ge A.length a.length with hl | hl
    · obtain ⟨x, rfl⟩ := List.prefix_of_prefix_length_le (List.prefix_append A ks) hp (Nat.le_of_lt hl)
      obtain ⟨y, hy⟩ := hp
      have e : x ++ y = ks := by
        rw [List.append_assoc] at hy
        exact List.append_cancel_left hy
      have hx : x ≠ [] := by
        rintro rfl
        simp at hl
      by_cases hy0 : y = []
      · subst hy0
        rw [List.append_nil] at e
        simp [TableType.table, hn, e]
      · exfalso
        have ht := target_append hpa hx (fun x' y' hx' hy' e' => hbt x' (y' ++ y) hx' (by simp [hy']) (by rw [← List.append_assoc, e', e]))
        rw [ht] at hc
        exact hc (hbt x y hx hy0 e)
    · have := ih a ha (List.prefix_of_prefix_length_le hp (List.prefix_append A ks) hl) hc
      simp only [List.map_append, List.mem_append]
      exact .inl this

/-- The first array of tables on the way. -/
theorem first_array {D : Sections} {A ks : List Str} {b : List Key} (hp : D.path [] A = b) : ∀ (n : Nat) (x y : List Str), x.length = n → x ≠ [] → y ≠ [] → x ++ y = ks →
    D.count (D.target (A ++ x)) ≠ none → ∃ x y n, x ≠ [] ∧ y ≠ [] ∧ x ++ y = ks ∧ D.count (b ++ Tomllib.names x) = some n := by
  intro n
  induction n using Nat.strongRecOn with
  | ind n ih =>
    intro x y hn hx hy e hc
    by_cases hex : ∃ x' y', x' ≠ [] ∧ y' ≠ [] ∧ x' ++ y' = x ∧ D.count (D.target (A ++ x')) ≠ none
    · obtain ⟨x', y', hx', hy', e', hc'⟩ := hex
      refine ih x'.length ?_ x' (y' ++ y) rfl hx' (by simp [hy]) (by rw [← List.append_assoc, e', e]) hc'
      rw [← hn, ← e', List.length_append]
      have := List.length_pos_iff.mpr hy'
      omega
    · have := target_free (ks := x) hp (fun x' y' hx' hy' e' => Classical.byContradiction fun h => hex ⟨x', y', hx', hy', e', h⟩) x.length x [] rfl hx (by simp)
      rw [this] at hc
      cases hc' : D.count (b ++ Tomllib.names x) with
      | none => exact absurd hc' hc
      | some n => exact ⟨x, y, n, hx, hy, e, hc'⟩

/-- The names that the library puts on the way end at an array of tables. -/
theorem implicit_shut {D : Sections} {m : KMap} {h : Heap} (g : D.Good (KP m) h) {cts : List TableType} {cis : List Nat} {A : List Str} {b : List Key} (hO : D.Open cts cis A b) {t : TableType}
    {x y : List Str} {n : Nat} (hx : x ≠ []) (hy : y ≠ []) (hn : t.table.names = A ++ (x ++ y)) (hc : D.count (b ++ Tomllib.names x) = some n) :
    addImplicitTables m h cts cis t = .panic .implicitStd := by
  have hsp : D.Spot (b ++ Tomllib.names x) := .inr (.inr (.inl ⟨_, count_mem hc, rfl⟩))
  have hsol := g.closed _ hsp
  have hw := g.wf _ hsp
  rw [addImplicitTables_eq g hO hn]
  exact implicitLoop_stop x y m b true hy hw (fun x' k z e' => g.hasName (hsol.str _ _ (Tomllib.names z) (by rw [← e', names_append]; simp [Tomllib.names])))
    ((g.slot _ hw).arr _ hc) (fun h => absurd h hx)

/-- Below the name of an array of tables there are no names. -/
theorem Good.beyond {D : Sections} {K : List Key → Option HashValue} {h : Heap} (g : D.Good K h) {p : List Key} {n : Nat} (hp : PathWf p) (hc : D.count p = some n) {k : Str} {q : List Str} (hq : PathWf (p ++ Tomllib.names (k :: q))) :
    K (p ++ Tomllib.names (k :: q)) = none := by
  have hnn : (p, k) ∉ D.names := fun hm => by
    have := g.count_table hp (isTable_names hm)
    rw [hc] at this
    simp at this
  have hns : ∀ r, D.Spot r → ¬ (p ++ [.str k] <+: r) := by
    rintro r hr ⟨z, rfl⟩
    exact hnn ((g.closed _ hr).str p k z (by simp))
  have hpre : p ++ [.str k] <+: p ++ Tomllib.names (k :: q) := ⟨Tomllib.names q, by simp [Tomllib.names]⟩
  have hpv : D.valueAt p = none := by
    cases e : D.valueAt p with
    | none => rfl
    | some v =>
      obtain ⟨a, fp, e1, _⟩ := (g.slot p hp).val v e
      rw [(g.slot p hp).arr n hc] at e1
      simp at e1
  have hno := g.noVal (g.closed p (.inr (.inr (.inl ⟨_, count_mem hc, rfl⟩)))) hpv
  refine (g.slot _ hq).none ?_ ?_ ?_
  · rw [valueAt_none]
    intro e he hpe
    rcases prefix_or (b := p) (k := k) (q := Tomllib.names q) (by simpa [Tomllib.names] using hpe) with h1 | h1
    · exact absurd h1 (hno e he)
    · exact absurd h1 (hns _ (.inl ⟨e, he, rfl⟩))
  · rw [count_none]
    intro e he h1
    exact hns e.1 (.inr (.inr (.inl ⟨e, he, rfl⟩))) (by rw [h1]; exact hpre)
  · rintro (h1 | h1 | ⟨e, he, h1⟩ | ⟨e, he, h1⟩)
    · simp [Tomllib.names] at h1
    · exact hns _ (.inr (.inl h1)) hpre
    · have h2 := congrArg List.getLast? h1
      rw [List.getLast?_concat, List.getLast?_append] at h2
      simp only [Tomllib.names, List.map_cons] at h2
      rw [List.getLast?_eq_some_getLast (by simp : Key.str k :: List.map Key.str q ≠ [])] at h2
      simp only [Option.some_or, Option.some.injEq] at h2
      have := List.getLast_mem (by simp : Key.str k :: List.map Key.str q ≠ [])
      rw [h2] at this
      simp at this
    · exact hns _ (.inr (.inr (.inr ⟨e, he, h1⟩))) hpre

/-- The header of an array of tables into one that is not open, or not the innermost. -/
theorem SimE.arr_shut {D : Sections} {st : PState} {E : List ParseError} (h : D.SimE E st) {w1 w2 : Str} {t : Table} {c : Option Str} (hw : (TableType.arr t).wf)
    (hs : D.shut (.table w1 (.arr t) w2 c)) : ∃ x, arrayTableAct t (st.pushKs (t.keys.map (·.key))) = .panic x := by
  obtain ⟨hap, hin, a, ha, hne, hc, hor⟩ := hs
  obtain ⟨cts0, cis0, A0, b0, hO0, hT0, hop⟩ := h.stack
  obtain ⟨a1, a2⟩ := arrPop hO0 hT0
  have hN := wf_names hw
  have g := h.good
  obtain ⟨ha1, ha2⟩ := mem_onWay.mp ha
  have hwr : ∀ u ∈ cts0, NamesWf u.table.names := fun u hu => (hO0.counted g u hu).2.2.2
  have hmem : ∀ u ∈ cts0, u.table.names ∈ D.opened := fun u hu => by rw [hop]; exact List.mem_map_of_mem hu
  -- what stays open
  have key : ∃ cts cis A b, D.Open cts cis A b ∧ A <+: t.names ∧ A.length < a.length ∧
      (arrPlace st.map st.heap (.arr t) cts0 cis0 = arrPush st.map st.heap (.arr t) cts cis ∨ arrPlace st.map st.heap (.arr t) cts0 cis0 = arrAgain st.map st.heap (.arr t) cts cis) := by
    by_cases hts : cts0 = []
    · subst hts
      have hA := hO0.wf.2.2.2.mpr rfl
      refine ⟨[], cis0, A0, b0, hO0, by rw [hA]; exact List.nil_prefix, by rw [hA]; exact List.length_pos_iff.mpr ha1, .inl rfl⟩
    have hu := List.getLast?_eq_some_getLast hts
    obtain ⟨u, hu1, hu2, _⟩ := hO0.last _ hu
    rw [hu1] at hu
    have hum : TableType.arr u ∈ cts0 := List.mem_of_getLast? hu
    have hlast : D.opened.getLastD [] = A0 := by
      rw [hop, List.getLastD_eq_getLast?, List.getLast?_map, hu]
      exact hu2
    have hkne : (TableType.arr t).keyStr ≠ (TableType.arr u).keyStr := fun h =>
      hin (by rw [show t.names = u.names from keyStr_inj (t := .arr t) (u := .arr u) hN.2 (hwr _ hum) h]; exact hmem _ hum)
    have hsub := isSub_iff (t := .arr t) (u := .arr u) hN.2 (hwr _ hum) (hmem _ hum) hap
    unfold arrPlace
    rw [hu]
    dsimp only
    rw [if_neg hkne]
    by_cases hp : A0 <+: t.names
    · rw [if_pos (hsub.mpr (by rw [← hu2] at hp; exact hp))]
      refine ⟨cts0, cis0, A0, b0, hO0, hp, ?_, .inl rfl⟩
      have hao : a ∉ D.opened := hor.resolve_right fun h => h (by rw [hlast]; exact List.isPrefixOf_iff_prefix.mpr hp)
      refine Nat.lt_of_not_le fun hl => hao ?_
      rw [hop]
      exact hO0.all g a ha1 (List.prefix_of_prefix_length_le ha2 hp hl) hc
    · rw [if_neg (fun h => hp (by rw [← hu2]; exact hsub.mp h))]
      obtain ⟨cts', cis', A', b', rest, p1, hO', p3, p4, p5, _⟩ := hO0.pop (fun top => decide ((TableType.arr t).keyStr = top.keyStr))
      rw [p1]
      have hnil : cts' = [] := by
        by_cases h0 : cts' = []
        · exact h0
        · have hv := List.getLast?_eq_some_getLast h0
          have h1 := p5 _ hv
          simp only [decide_eq_true_eq] at h1
          have h2 : cts'.getLast h0 ∈ cts0 := by rw [p3]; simp
          have := keyStr_inj hN.2 (hwr _ h2) h1
          refine absurd ?_ hin
          rw [show t.names = _ from this]
          exact hmem _ h2
      subst hnil
      rw [if_neg (by simp)]
      have hA := hO'.wf.2.2.2.mpr rfl
      exact ⟨[], cis', A', b', hO', by rw [hA]; exact List.nil_prefix, by rw [hA]; exact List.length_pos_iff.mpr ha1, .inr rfl⟩
  obtain ⟨cts, cis, A, b, hO, ⟨ks, hks⟩, hlt, hpl⟩ := key
  obtain ⟨x0, rfl⟩ := List.prefix_of_prefix_length_le (l₁ := A) (l₂ := a) ⟨ks, hks⟩ ha2 (Nat.le_of_lt hlt)
  obtain ⟨y0, hy0⟩ := ha2
  have e0 : x0 ++ y0 = ks := by
    rw [← hks, List.append_assoc] at hy0
    exact List.append_cancel_left hy0
  have hx0 : x0 ≠ [] := by
    rintro rfl
    simp at hlt
  have hy00 : y0 ≠ [] := by
    rintro rfl
    exact hne (by rw [← hy0, List.append_nil])
  obtain ⟨x, y, n, hx, hy, e, hcn⟩ := first_array (hO.path g).1 x0.length x0 y0 rfl hx0 hy00 e0 hc
  have hadd := implicit_shut g hO (t := .arr t) hx hy (by rw [e]; exact hks.symm) hcn
  unfold arrayTableAct
  have hlen : (st.pushKs (t.keys.map (·.key))).keychain.length = t.keys.length := by simp [PState.pushKs, h.kc]
  simp only [hlen, Nat.lt_irrefl, if_false, Nat.sub_self, List.take_zero]
  have e1 : (st.pushKs (t.keys.map (·.key))).lastArrayTables = st.lastArrayTables := rfl
  have e2 : (st.pushKs (t.keys.map (·.key))).lastArrayTablesIndex = st.lastArrayTablesIndex := rfl
  have e3 : (st.pushKs (t.keys.map (·.key))).map = st.map := rfl
  have e4 : (st.pushKs (t.keys.map (·.key))).heap = st.heap := rfl
  rw [e1, e2, e3, e4, a1, a2]
  have hpush : arrPush st.map st.heap (.arr t) cts cis = .panic .implicitStd := by
    unfold arrPush
    rw [hadd]
    rfl
  rcases hpl with hpl | hpl
  · rw [hpl, hpush]; exact ⟨_, rfl⟩
  · rw [hpl, arrAgain, hpush]; exact ⟨_, rfl⟩

/-- The header of a table in an array of tables that is not open. -/
theorem SimE.std_shut {D : Sections} {st : PState} {E : List ParseError} (h : D.SimE E st) {w1 w2 : Str} {t : Table} {c : Option Str} (hw : (TableType.std t).wf)
    (hs : D.shut (.table w1 (.std t) w2 c)) : ∃ x, stdTableAct t (st.pushKs (t.keys.map (·.key))) = .panic x := by
  obtain ⟨hap, a, ha, hna, hc, hao⟩ := hs
  obtain ⟨cts0, cis0, A0, b0, hO0, hT0, hop⟩ := h.stack
  have hN := wf_names hw
  have g := h.good
  obtain ⟨ha1, ha2⟩ := mem_onWay.mp ha
  have hwr : ∀ u ∈ cts0, NamesWf u.table.names := fun u hu => (hO0.counted g u hu).2.2.2
  have hin : t.names ∉ D.opened := by
    intro hin
    rw [hop, List.mem_map] at hin
    obtain ⟨u, hu, hun⟩ := hin
    have hA0 := (hO0.counted g u hu).2.1
    rw [hun] at hA0
    exact hao (by rw [hop]; exact hO0.all g a ha1 (ha2.trans hA0) hc)
  have hpop := stdPop_eq g hw hO0 hT0 hop hap hin
  obtain ⟨cts, cis, A, b, rest, p1, hO, p3, p4, p5, _⟩ := hO0.pop (fun top => (TableType.std t).isSubtableOf top)
  rw [p1] at hpop
  obtain ⟨_, ks, hks⟩ := hO.keep g hw hop hap p3 p4 hwr p5
  have hks' : t.names = A ++ ks := hks.symm
  have hlt : A.length < a.length := by
    refine Nat.lt_of_not_le fun hl => hao ?_
    have := hO.all g a ha1 (List.prefix_of_prefix_length_le ha2 ⟨ks, hks⟩ hl) hc
    rw [hop, p3, List.map_append, List.mem_append]
    exact .inl this
  obtain ⟨x0, rfl⟩ := List.prefix_of_prefix_length_le (l₁ := A) (l₂ := a) ⟨ks, hks⟩ ha2 (Nat.le_of_lt hlt)
  obtain ⟨y0, hy0⟩ := ha2
  have e0 : x0 ++ y0 = ks := by
    rw [hks', List.append_assoc] at hy0
    exact List.append_cancel_left hy0
  have hx0 : x0 ≠ [] := by
    rintro rfl
    simp at hlt
  have hy00 : y0 ≠ [] := by
    rintro rfl
    exact hna (by rw [← hy0, List.append_nil])
  obtain ⟨x, y, n, hx, hy, e, hcn⟩ := first_array (hO.path g).1 x0.length x0 y0 rfl hx0 hy00 e0 hc
  have hne : ks ≠ [] := by rw [← e]; simp [hx]
  have hAN : A ≠ t.names := by rw [hks']; simp [hne]
  have hadd := implicit_shut g hO (t := .std t) hx hy (by rw [e]; exact hks') hcn
  have hsp : D.Spot (b ++ Tomllib.names x) := .inr (.inr (.inl ⟨_, count_mem hcn, rfl⟩))
  have hsol := g.closed _ hsp
  have hwx := g.wf _ hsp
  have hwk : PathWf (b ++ Tomllib.names ks) := hO.wf.2.1.append' (NamesWf.path (by
    have := hN.2
    rw [show (TableType.std t).table.names = A ++ ks from hks'] at this
    exact this.right))
  -- there are no values on the way
  have hpast : ∀ k z y', x ++ k :: z ++ y' = ks → KP st.map (b ++ Tomllib.names (x ++ k :: z)) = none := by
    intro k z y' e'
    rw [names_append, ← List.append_assoc]
    refine g.beyond hwx hcn ?_
    rw [← e', names_append, names_append, ← List.append_assoc, ← List.append_assoc] at hwk
    exact hwk.left
  have hval : ∀ x' y', x' ≠ [] → x' ++ y' = ks → keyHasValue st.map st.heap (keyOf [] (b ++ Tomllib.names x')) = false := by
    intro x' y' hx' e'
    have hne' : b ++ Tomllib.names x' ≠ [] := by simp [names_ne hx']
    unfold keyHasValue
    rw [KP_ne hne']
    rcases Nat.lt_or_ge x.length x'.length with hl | hl
    · obtain ⟨z, rfl⟩ := List.prefix_of_prefix_length_le (l₁ := x) (l₂ := x') ⟨y, e⟩ ⟨y', e'⟩ (Nat.le_of_lt hl)
      cases z with
      | nil => simp at hl
      | cons k z => rw [hpast k z y' e']
    · obtain ⟨z, hz⟩ := List.prefix_of_prefix_length_le (l₁ := x') (l₂ := x) ⟨y', e'⟩ ⟨y, e⟩ hl
      cases z with
      | nil =>
        rw [List.append_nil] at hz
        rw [hz, (g.slot _ hwx).arr _ hcn]
      | cons k z =>
        have hm : (b ++ Tomllib.names x', k) ∈ D.names := hsol.str _ _ (Tomllib.names z) (by rw [← hz, names_append]; simp [Tomllib.names])
        obtain ⟨v, l, k1, _, k3, k4⟩ := (g.slot _ (g.wf _ (.inr (.inr (.inr ⟨_, hm, rfl⟩))))).tab (isTable_names hm)
        rw [k1]
        by_cases hh : b ++ Tomllib.names x' ∈ D.heads
        · obtain ⟨a, rfl, hcell⟩ := k3 hh
          simp [hcell]
        · rw [k4 hh]
  obtain ⟨v, c1, c2⟩ := TChain.std st.heap (hO.chain g) hw hks' hne [] 0
  obtain rfl := c2 hval
  have hlx : 1 ≤ x.length := List.length_pos_iff.mpr hx
  have hly : 1 ≤ y.length := List.length_pos_iff.mpr hy
  have hl1 : ks.length ≠ 1 := by
    rw [← e, List.length_append]
    omega
  have hdl : ks.dropLast = x ++ y.dropLast := by rw [← e, List.dropLast_append_of_ne_nil hy]
  unfold stdTableAct
  have hlen : (st.pushKs (t.keys.map (·.key))).keychain.length = t.keys.length := by simp [PState.pushKs, h.kc]
  simp only [hlen, Nat.lt_irrefl, if_false]
  have e1 : (st.pushKs (t.keys.map (·.key))).lastArrayTables = st.lastArrayTables := rfl
  have e2 : (st.pushKs (t.keys.map (·.key))).lastArrayTablesIndex = st.lastArrayTablesIndex := rfl
  have e3 : (st.pushKs (t.keys.map (·.key))).map = st.map := rfl
  have e4 : (st.pushKs (t.keys.map (·.key))).heap = st.heap := rfl
  rw [e1, e2, e3, e4, hpop]
  have hck : stdCheck st.map st.heap (.std t) cts cis = (keyHasChildrenWithValues st.map st.heap (keyOf [] (b ++ Tomllib.names ks.dropLast))).bind fun bad =>
      .ok (bad || tableDefined st.map st.heap (keyOf [] (b ++ Tomllib.names ks)), keyOf [] (b ++ Tomllib.names ks), keyOf [] (b ++ Tomllib.names ks.dropLast)) := by
    unfold stdCheck
    rw [sameTop_false g hw hO hAN]
    simp only [Bool.false_eq_true, if_false, Out.bind_eq, c1, Out.bind, if_neg hl1, Bool.not_true]
  have hpne : b ++ Tomllib.names ks.dropLast ≠ [] := by rw [hdl]; simp [names_append, names_ne hx]
  have hwd : PathWf (b ++ Tomllib.names ks.dropLast) := by
    have h1 := List.dropLast_concat_getLast hne
    rw [← h1, names_append, ← List.append_assoc] at hwk
    exact hwk.left
  by_cases hy1 : y.dropLast = []
  · -- the array is the parent
    have hkh : keyHasChildrenWithValues st.map st.heap (keyOf [] (b ++ Tomllib.names ks.dropLast)) = .panic .stdTableIndexed := by
      unfold keyHasChildrenWithValues
      rw [if_neg (keyOf_ne_root hwd), KP_ne hpne, hdl, hy1, List.append_nil, (g.slot _ hwx).arr _ hcn]
      have := g.pos _ (count_mem hcn)
      simp only at this ⊢
      rw [if_pos (by omega)]
    rw [hck, hkh]
    exact ⟨_, rfl⟩
  · have hkh : keyHasChildrenWithValues st.map st.heap (keyOf [] (b ++ Tomllib.names ks.dropLast)) = .ok false := by
      unfold keyHasChildrenWithValues
      rw [if_neg (keyOf_ne_root hwd), KP_ne hpne, hdl]
      cases hyd : y.dropLast with
      | nil => exact absurd hyd hy1
      | cons k z =>
        rw [hpast k z [y.getLast hy] (by rw [← e, ← hyd, List.append_assoc, List.dropLast_concat_getLast])]
    have htd : tableDefined st.map st.heap (keyOf [] (b ++ Tomllib.names ks)) = false := by
      unfold tableDefined
      rw [KP_ne (by simp [names_ne hne])]
      cases hyc : y with
      | nil => exact absurd hyc hy
      | cons k z =>
        have := hpast k z [] (by rw [← hyc, List.append_nil, e])
        rw [← hyc, e] at this
        rw [this]
    rw [hck, hkh, htd]
    simp only [Out.bind_eq, Out.bind, Bool.or_self, Bool.false_eq_true, if_false, hadd]
    exact ⟨_, rfl⟩

theorem stdTableAct_flags (t : Table) (st : PState) (a : Bool) (l : Option TableType) :
    (stdTableAct t { st with arrayError := a, lastTable := l }).map' (·.1.errors) = (stdTableAct t st).map' (·.1.errors) := by
  unfold stdTableAct
  dsimp only
  split
  · rfl
  · cases stdCheck st.map st.heap (.std t) (stdPop (.std t) st.lastArrayTables st.lastArrayTablesIndex).1 (stdPop (.std t) st.lastArrayTables st.lastArrayTablesIndex).2 with
    | panic x => rfl
    | fuel => rfl
    | ok x =>
      obtain ⟨er, fk, pk⟩ := x
      simp only [Out.bind_eq, Out.bind]
      cases er with
      | true =>
        simp only [if_true]
        cases getArrayTableKey st.map st.heap ((stdPop (.std t) st.lastArrayTables st.lastArrayTablesIndex).1 ++ [.std t]) ((stdPop (.std t) st.lastArrayTables st.lastArrayTablesIndex).2 ++ [0]) <;> rfl
      | false =>
        simp only [Bool.false_eq_true, if_false]

/-- A header that leads into an array of tables which is shut. -/
theorem RSim.shut {R : Account} {st : PState} (h : RSim R st) {e : ET} (hw : e.wf) (hs : R.doc.shut e) : ∃ x, e.eff st = .panic x := by
  have hx : ∃ E lt ae, R.doc.SimE E { st with arrayError := ae, lastTable := lt } := by
    unfold RSim at h
    split at h
    · obtain ⟨_, _, lt, h3⟩ := h
      exact ⟨_, lt, false, h3⟩
    · exact ⟨_, st.lastTable, st.arrayError, h⟩
  obtain ⟨E, lt, ae, hx⟩ := hx
  cases e with
  | blank w => exact absurd hs id
  | comment w c => exact absurd hs id
  | kv w1 k s v w2 c => exact absurd hs id
  | table w1 t w2 c =>
    cases t with
    | std t =>
      obtain ⟨x, h1⟩ := hx.std_shut hw.2.1 hs
      have hfl := stdTableAct_flags t (st.pushKs (t.keys.map (·.key))) ae lt
      have hfl : (stdTableAct t (PState.pushKs { st with arrayError := ae, lastTable := lt } (t.keys.map (·.key)))).map' (·.1.errors) = _ := hfl
      rw [h1] at hfl
      cases hb : stdTableAct t (st.pushKs (t.keys.map (·.key))) with
      | ok y => rw [hb] at hfl; simp [Out.map'] at hfl
      | fuel => rw [hb] at hfl; simp [Out.map'] at hfl
      | panic z => exact ⟨z, by simp only [ET.eff, TableType.eff, hb, Out.bind]⟩
    | arr t =>
      obtain ⟨x, h1⟩ := hx.arr_shut hw.2.1 hs
      have hfl := arrayTableAct_flags t (st.pushKs (t.keys.map (·.key))) ae lt
      have hfl : (arrayTableAct t (PState.pushKs { st with arrayError := ae, lastTable := lt } (t.keys.map (·.key)))).map' (·.1.errors) = _ := hfl
      rw [h1] at hfl
      cases hb : arrayTableAct t (st.pushKs (t.keys.map (·.key))) with
      | ok y => rw [hb] at hfl; simp [Out.map'] at hfl
      | fuel => rw [hb] at hfl; simp [Out.map'] at hfl
      | panic z => exact ⟨z, by simp only [ET.eff, TableType.eff, hb, Out.bind]⟩

end Sections
end Tomllib
