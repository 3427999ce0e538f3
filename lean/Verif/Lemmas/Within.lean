import Verif.Lemmas.Muted
import Verif.Lemmas.Links
/-!
# Headers of arrays of tables that go into an inline table
-/

namespace Tomllib

theorem lastKey_step {b : List Key} {k : Str} (hwb : PathWf b) : (if parP b ≠ root then parP b ++ lit% "." ++ k else k) = parP (b ++ [.str k]) := by
  by_cases h0 : b = []
  · subst h0; simp [parP, keyOf, Key.add, dotted]
  · rw [parP_ne h0, if_pos (keyOf_ne_root hwb), parP_ne (by simp), ← dotP_add hwb, dotP, if_neg h0]

/-- The loop over the names of a header, where there are tables or inline tables on the way, or nothing: every name is listed afterwards. -/
theorem implicitLoop_through : ∀ (ks : List Str) (m : KMap) (b : List Key) (first : Bool), ks ≠ [] → PathWf (b ++ names ks) → (∃ v l, KP m b = some ⟨v, .keys l⟩) →
    (∀ x k y, x ≠ [] → x ++ k :: y = ks → ∀ e, KP m (b ++ names x) = some e → ∃ l, e.subkeys = .keys l) →
    (∀ x k y, y ≠ [] → x ++ k :: y = ks → ∀ v l, KP m (b ++ names x) = some ⟨v, .keys l⟩ → k ∈ l → KP m (b ++ names (x ++ [k])) ≠ none) →
    ∃ m', implicitLoop ks m (parP b) first = .ok m' ∧ (∀ x k y, x ++ k :: y = ks → ∃ v l, KP m' (b ++ names x) = some ⟨v, .keys l⟩ ∧ k ∈ l) ∧
      ∀ q, PathWf q → (∀ x k y, x ++ k :: y = ks → q ≠ b ++ names x) → KP m' q = KP m q
  | [], _, _, _, hne, _, _, _, _ => absurd rfl hne
  | k :: ks, m, b, first, _, hw, ⟨v, l, hb⟩, hkeys, hcons => by
    have hwb : PathWf b := hw.left
    have hg : m.get? (parP b) = some ⟨v, .keys l⟩ := hb
    have hmem : k ∈ (insertUniq l k).1 := by
      unfold insertUniq
      split
      next h => simpa using h
      · simp
    have hK : ∀ q, PathWf q → KP (m.insert (parP b) ⟨v, .keys (insertUniq l k).1⟩) q = if b = q then some ⟨v, .keys (insertUniq l k).1⟩ else KP m q := fun q hq => KP_insert hwb hq _
    rw [implicitLoop, hg]
    dsimp only
    by_cases hks : ks = []
    · subst hks
      rw [if_pos rfl]
      refine ⟨_, rfl, fun x k' y e => ?_, fun q hq hn => ?_⟩
      · have hx : x = [] := by
          cases x with
          | nil => rfl
          | cons a x => simp at e
        subst hx
        simp only [List.nil_append, List.cons.injEq] at e
        obtain ⟨rfl, rfl⟩ := e
        refine ⟨v, _, ?_, hmem⟩
        rw [show b ++ names [] = b by simp [names], hK b hwb, if_pos rfl]
      · rw [hK q hq, if_neg]
        intro e
        exact hn [] k [] rfl (by simp [names, e])
    · rw [if_neg hks, lastKey_step hwb]
      have hw1 : PathWf (b ++ [.str k]) := by
        have : PathWf ((b ++ [.str k]) ++ names ks) := by simpa [names] using hw
        exact this.left
      have hw' : PathWf (b ++ [.str k] ++ names ks) := by simpa [names] using hw
      have hcomm : ∀ x, b ++ [.str k] ++ names x = b ++ names (k :: x) := fun x => by simp [names]
      have hb1 : b ≠ b ++ [.str k] := by simp
      have key : ∀ m1, (∀ q, PathWf q → q ≠ b ++ [.str k] → KP m1 q = if b = q then some ⟨v, .keys (insertUniq l k).1⟩ else KP m q) →
          (∃ v l, KP m1 (b ++ [.str k]) = some ⟨v, .keys l⟩ ∧ (l = [] ∨ KP m1 (b ++ [.str k]) = KP m (b ++ [.str k]))) →
          ∃ m', implicitLoop ks m1 (parP (b ++ [.str k])) false = .ok m' ∧ (∀ x k_1 y, x ++ k_1 :: y = k :: ks → ∃ v l, KP m' (b ++ names x) = some ⟨v, .keys l⟩ ∧ k_1 ∈ l) ∧
            ∀ q, PathWf q → (∀ x k_1 y, x ++ k_1 :: y = k :: ks → q ≠ b ++ names x) → KP m' q = KP m q := by
        intro m1 hm1 ⟨v1, l1, he1, hl1⟩
        have hdeep : ∀ x k' y, x ≠ [] → x ++ k' :: y = ks → PathWf (b ++ [.str k] ++ names x) ∧ KP m1 (b ++ [.str k] ++ names x) = KP m (b ++ [.str k] ++ names x) := by
          intro x k' y hx e
          have hwx : PathWf (b ++ [.str k] ++ names x) := by
            rw [← e, names_append, ← List.append_assoc] at hw'
            exact hw'.left
          refine ⟨hwx, ?_⟩
          have hl := List.length_pos_iff.mpr hx
          rw [hm1 _ hwx, if_neg]
          · intro h
            have := congrArg List.length h
            simp at this
          · intro h
            have := congrArg List.length h
            simp [names] at this
            exact hx this
        obtain ⟨m', r1, r2, r3⟩ := implicitLoop_through ks m1 (b ++ [.str k]) false hks hw' ⟨v1, l1, he1⟩
          (fun x k' y hx e ee he => by
            rw [(hdeep x k' y hx e).2, hcomm] at he
            exact hkeys (k :: x) k' y (by simp) (by simp [e]) ee he)
          (fun x k' y hy e v' l' he hk' => by
            obtain ⟨k2, y2, rfl⟩ : ∃ k2 y2, y = k2 :: y2 := by
              cases y with
              | nil => exact absurd rfl hy
              | cons k2 y2 => exact ⟨k2, y2, rfl⟩
            rw [(hdeep (x ++ [k']) k2 y2 (by simp) (by simp [← e])).2, hcomm]
            have key := hcons (k :: x) k' (k2 :: y2) hy (by simp [e]) v' l'
            by_cases hx : x = []
            · subst hx
              rcases hl1 with rfl | h1
              · rw [show b ++ [Key.str k] ++ names [] = b ++ [Key.str k] by simp [names], he1] at he
                simp at he
                rw [he.2] at hk'
                simp at hk'
              · refine key ?_ hk'
                rw [← hcomm, ← he]
                rw [show b ++ [Key.str k] ++ names [] = b ++ [Key.str k] by simp [names], h1]
            · refine key ?_ hk'
              rw [← hcomm, ← (hdeep x k' (k2 :: y2) hx e).2]
              exact he)
        refine ⟨m', r1, fun x k' y e => ?_, fun q hq hn => ?_⟩
        · cases x with
          | nil =>
            simp only [List.nil_append, List.cons.injEq] at e
            obtain ⟨rfl, rfl⟩ := e
            refine ⟨v, _, ?_, hmem⟩
            rw [show b ++ names [] = b by simp [names], r3 b hwb (fun x k y _ h => by
              have := congrArg List.length h
              simp at this), hm1 b hwb hb1, if_pos rfl]
          | cons a x =>
            simp only [List.cons_append, List.cons.injEq] at e
            obtain ⟨rfl, e⟩ := e
            obtain ⟨v', l', h1, h2⟩ := r2 x k' y e
            exact ⟨v', l', by rw [← hcomm]; exact h1, h2⟩
        · rw [r3 q hq (fun x k' y e => by rw [hcomm]; exact hn (k :: x) k' y (by simp [e]))]
          obtain ⟨k2, y2, hk2⟩ : ∃ k2 y2, ks = k2 :: y2 := by
            cases ks with
            | nil => exact absurd rfl hks
            | cons k2 y2 => exact ⟨k2, y2, rfl⟩
          rw [hm1 q hq (fun h => hn [k] k2 y2 (by simp [hk2]) (by rw [h]; simp [names])), if_neg (fun h => hn [] k ks rfl (by rw [← h]; simp [names]))]
      by_cases hkl : k ∈ l
      · have hins : (insertUniq l k).2 = false := by simp [insertUniq, hkl]
        rw [hins]
        simp only [Bool.false_eq_true, if_false]
        have hq1 : KP (m.insert (parP b) ⟨v, .keys (insertUniq l k).1⟩) (b ++ [.str k]) = KP m (b ++ [.str k]) := by rw [hK _ hw1, if_neg hb1]
        refine key _ (fun q hq _ => hK q hq) ?_
        have h1 := hcons [] k ks hks rfl v l (by simpa [names] using hb) hkl
        obtain ⟨k2, y2, hk2⟩ : ∃ k2 y2, ks = k2 :: y2 := by
          cases ks with
          | nil => exact absurd rfl hks
          | cons k2 y2 => exact ⟨k2, y2, rfl⟩
        cases he : KP m (b ++ [.str k]) with
        | none => exact absurd (by simpa [names] using he) h1
        | some e =>
          obtain ⟨l', hl'⟩ := hkeys [k] k2 y2 (by simp) (by simp [hk2]) e (by simpa [names] using he)
          obtain ⟨v', s'⟩ := e
          subst hl'
          exact ⟨v', l', by rw [hq1, he], .inr (by rw [hq1, he])⟩
      · have hins : (insertUniq l k).2 = true := by simp [insertUniq, hkl]
        rw [hins]
        simp only [if_true]
        refine key _ (fun q hq hqb => by rw [KP_insert hw1 hq, if_neg (Ne.symm hqb)]; exact hK q hq) ⟨none, [], by rw [KP_insert hw1 hw1, if_pos rfl], .inl rfl⟩

namespace Sections

/-- The key of the header of an array of tables, whatever there is. -/
theorem topAny {m : KMap} {h : Heap} {ts : List TableType} {is : List Nat} {A : List Str} {b : List Key} (hc : TChain (KP m) ts is A b) {t : Table} {ks : List Str}
    (hw : (TableType.arr t).wf) (hn : t.names = A ++ ks) (hne : ks ≠ []) (hb : ∀ x k y, x ++ k :: y = ks → ∃ v l, KP m (b ++ Tomllib.names x) = some ⟨v, .keys l⟩ ∧ k ∈ l) (j : Nat) :
    getArrayTableKey m h (ts ++ [.arr t]) (is ++ [j]) = (arrTableIndex m (keyOf [] (b ++ Tomllib.names ks)) j).bind fun i =>
      .ok (arrTableValid m (keyOf [] (b ++ Tomllib.names ks)) true, keyOf [] (b ++ Tomllib.names ks) ++ idxStr i, keyOf [] (b ++ Tomllib.names ks)) := by
  have hN : NamesWf t.names := Table.namesWf hw.2
  have hwk : PathWf (b ++ Tomllib.names ks) := hc.wf.2.1.append' (NamesWf.path (by rw [hn] at hN; exact hN.right))
  have hs := arr_step (m := m) hn hc.wf.2.2 hwk hne (fun x k y _ => hb x k y)
  rw [getArrayTableKey, hc.loop _ _ (by simp), arrayTableKeyLoop, hs]
  simp only [Out.bind_eq, Out.bind]
  rw [arr_full hn hwk hne]
  cases arrTableIndex m (keyOf [] (b ++ Tomllib.names ks)) j <;> simp [arrayTableKeyLoop]

/-- A part of a value that is listed exists. -/
theorem valueAt_child {D : Sections} {p : List Key} {v : VT} (hv : D.valueAt p = some v) {k : Key} (hk : v.children.has k) : D.valueAt (p ++ [k]) ≠ none := by
  obtain ⟨e, s, he, rfl, hs⟩ := valueAt_entry hv
  intro h0
  have := valueAt_none.mp h0 e he (by rw [List.append_assoc]; exact List.prefix_append _ _)
  rw [List.append_assoc, List.drop_left, VT.part_append, hs, Option.bind_some] at this
  exact (VT.part_one v k).mpr hk this

/-- Everything above a value is listed. -/
theorem Good.listedAbove {D : Sections} {m : KMap} {h : Heap} (g : D.Good (KP m) h) (hp : D.vals.Pairwise Apart) {p q : List Key} {k : Str} (hw : PathWf p)
    (hv : D.valueAt (p ++ .str k :: q) ≠ none) : ∃ v l, KP m p = some ⟨v, .keys l⟩ ∧ k ∈ l := by
  obtain ⟨v, hv⟩ := Option.ne_none_iff_exists'.mp hv
  obtain ⟨e, s, he, e1, hs⟩ := valueAt_entry hv
  rcases prefix_or (a := e.1) (b := p) (k := k) (q := q) ⟨s, e1.symm⟩ with ⟨s', hs'⟩ | ⟨r, hr⟩
  · have hva := valueAt_apart hp he s'
    rw [hs'] at hva
    have hss : s = s' ++ .str k :: q := by
      rw [← hs', List.append_assoc] at e1
      exact (List.append_cancel_left e1).symm
    rw [hss, VT.part_append] at hs
    cases hv' : e.2.part s' with
    | none => rw [hv'] at hs; simp at hs
    | some v' =>
      rw [hv', Option.bind_some, show Key.str k :: q = [Key.str k] ++ q from rfl, VT.part_append] at hs
      have hk : v'.children.has (.str k) := by
        rw [← VT.part_one]
        intro h0
        rw [h0] at hs
        simp at hs
      rw [hv'] at hva
      obtain ⟨a, fp, k1, _⟩ := (g.slot p hw).val v' hva
      cases hc : v'.children with
      | count n => rw [hc] at hk; exact absurd hk id
      | keys l => rw [hc] at hk k1; exact ⟨_, l, k1, hk⟩
  · exact g.hasName ((g.closed _ (.inl ⟨e, he, rfl⟩)).str p k r (by rw [← hr]; simp))

/-- The header of an array of tables that the library can place, whatever is on the way. -/
theorem SimE.arr_walk {D : Sections} {st : PState} {E : List ParseError} (h : D.SimE E st) (hpl : D.Plain) {w1 w2 : Str} {t : Table} {c : Option Str} (hw : (TableType.arr t).wf)
    (hap : D.apart t.names) (hcl : D.clear t.names) (hcnt : ∀ a ∈ onWay t.names, D.count (D.target a) ≠ none → a ∈ D.opened) (hin : t.names ∉ D.opened)
    (hor : (∀ P ∈ D.opened, ¬ P.isPrefixOf t.names) ∨ (D.opened.getLastD []).isPrefixOf t.names) :
    if D.crashes (.table w1 (.arr t) w2 c) then ∃ x, arrayTableAct t (st.pushKs (t.keys.map (·.key))) = .panic x
    else ∃ y, arrayTableAct t (st.pushKs (t.keys.map (·.key))) = .ok y := by
  obtain ⟨cts0, cis0, A0, b0, hO0, hT0, hop⟩ := h.stack
  have hN := wf_names hw
  have g := h.good
  obtain ⟨cts, cis, A, b, hO, ⟨ks, hks⟩, hAN, hfil, hpl'⟩ := arrPlace_which (m := st.map) (h := st.heap) g hw hO0 hop hap hin hor
  obtain ⟨a1, a2⟩ := arrPop hO0 hT0
  have hks' : t.names = A ++ ks := hks.symm
  have hne : ks ≠ [] := by
    rintro rfl
    exact hAN (by rw [hks', List.append_nil])
  have hnopen : ∀ x y, x ≠ [] → x ++ y = ks → A ++ x ∉ D.opened := by
    intro x y hx e hm
    have : A ++ x ∈ D.opened.filter fun P => P.isPrefixOf t.names := by
      rw [List.mem_filter, List.isPrefixOf_iff_prefix]
      exact ⟨hm, y, by rw [List.append_assoc, e, hks']⟩
    rw [hfil, List.mem_map] at this
    obtain ⟨u, hu, e'⟩ := this
    have := (hO.counted g u hu).2.1.length_le
    rw [e'] at this
    simp at this
    have := List.length_pos_iff.mpr hx
    omega
  have hmw : ∀ x y, x ≠ [] → x ++ y = ks → A ++ x ∈ onWay t.names := fun x y hx e => mem_onWay.mpr ⟨by simp [hx], y, by rw [List.append_assoc, e, hks']⟩
  have hon : ∀ x y, x ≠ [] → x ++ y = ks → D.count (D.target (A ++ x)) = none := by
    intro x y hx e
    cases hc : D.count (D.target (A ++ x)) with
    | none => rfl
    | some n => exact absurd (hcnt (A ++ x) (hmw x y hx e) (by rw [hc]; simp)) (hnopen x y hx e)
  have hp := hO.path g
  have htf := fun x y => target_free hp.1 (fun x y hx _ e => hon x y hx e) x.length x y rfl
  have hcnt' : ∀ x y, x ≠ [] → x ++ y = ks → D.count (b ++ Tomllib.names x) = none := by
    intro x y hx e
    rw [← htf x y hx e]
    exact hon x y hx e
  have hTt : D.target t.names = b ++ Tomllib.names ks := by rw [hks']; exact htf ks [] hne (by simp)
  have hwk : PathWf (b ++ Tomllib.names ks) := hO.wf.2.1.append' (NamesWf.path (by
    have := hN.2
    rw [show (TableType.arr t).table.names = A ++ ks from hks'] at this
    exact this.right))
  have hwx : ∀ x y, x ++ y = ks → PathWf (b ++ Tomllib.names x) := by
    intro x y e
    rw [← e, names_append, ← List.append_assoc] at hwk
    exact hwk.left
  -- where a value can be
  have hway : (∃ a ∈ onWay t.names, a ≠ t.names ∧ (D.valueAt (D.target a)).isSome ∧ inlined (D.valueAt (D.target a)) = false) ↔
      ∃ x y, x ≠ [] ∧ y ≠ [] ∧ x ++ y = ks ∧ D.valueAt (b ++ Tomllib.names x) ≠ none ∧ inlined (D.valueAt (b ++ Tomllib.names x)) = false := by
    constructor
    · rintro ⟨a, ha, hne1, hs, hi⟩
      obtain ⟨ha1, ha2⟩ := mem_onWay.mp ha
      rcases Nat.lt_or_ge A.length a.length with hl | hl
      · obtain ⟨x, rfl⟩ := List.prefix_of_prefix_length_le (l₁ := A) (l₂ := a) ⟨ks, hks⟩ ha2 (Nat.le_of_lt hl)
        have hx : x ≠ [] := by
          rintro rfl
          simp at hl
        obtain ⟨y, hy⟩ := ha2
        have e : x ++ y = ks := by
          rw [hks', List.append_assoc] at hy
          exact List.append_cancel_left hy
        rw [htf x y hx e] at hs hi
        refine ⟨x, y, hx, ?_, e, ?_, hi⟩
        · rintro rfl
          rw [List.append_nil] at e
          exact hne1 (by rw [e, hks'])
        · intro h0
          rw [h0] at hs
          simp at hs
      · have := hO.free g ha1 (List.prefix_of_prefix_length_le ha2 ⟨ks, hks⟩ hl)
        rw [this] at hs
        simp at hs
    · rintro ⟨x, y, hx, hy, e, hv, hi⟩
      refine ⟨A ++ x, hmw x y hx e, by rw [hks', ← e]; simp [hy], ?_⟩
      rw [htf x y hx e]
      refine ⟨?_, hi⟩
      cases hc : D.valueAt (b ++ Tomllib.names x) with
      | none => exact absurd hc hv
      | some v => rfl
  -- the effect
  have heff : arrayTableAct t (st.pushKs (t.keys.map (·.key))) = ((arrPlace st.map st.heap (.arr t) cts0 cis0).bind fun x => (getArrayTableKey x.1 st.heap x.2.1 x.2.2).bind fun y =>
      if !y.1 then .ok ({ st with keychain := [], lastArrayTables := x.2.1, lastArrayTablesIndex := x.2.2, arrayError := false, map := x.1, errors := st.errors ++ [.invalidTable y.2.1 st.lineCount 0 []] }, .arr t)
      else .ok ({ st with keychain := [], lastArrayTables := x.2.1, lastArrayTablesIndex := x.2.2, arrayError := false, map := (if x.1.contains y.2.2 then x.1 else x.1.insert y.2.2 ⟨none, .count 1⟩).insert y.2.1 ⟨none, .keys []⟩, lastTable := some (.arr t) }, .arr t)) := by
    rw [arrayTableAct]
    have hlen : (st.pushKs (t.keys.map (·.key))).keychain.length = t.keys.length := by simp [PState.pushKs, h.kc]
    simp only [hlen, Nat.lt_irrefl, if_false, Nat.sub_self, List.take_zero]
    have e1 : (st.pushKs (t.keys.map (·.key))).lastArrayTables = st.lastArrayTables := rfl
    have e2 : (st.pushKs (t.keys.map (·.key))).lastArrayTablesIndex = st.lastArrayTablesIndex := rfl
    have e3 : (st.pushKs (t.keys.map (·.key))).map = st.map := rfl
    have e4 : (st.pushKs (t.keys.map (·.key))).heap = st.heap := rfl
    rw [e1, e2, e3, e4, a1, a2]
    cases arrPlace st.map st.heap (.arr t) cts0 cis0 with
    | ok x =>
      obtain ⟨m, ts, is⟩ := x
      simp only [Out.bind_eq, Out.bind]
      cases getArrayTableKey m st.heap ts is with
      | ok y =>
        obtain ⟨v, f, pk⟩ := y
        cases v <;> rfl
      | panic x => rfl
      | fuel => rfl
    | panic x => rfl
    | fuel => rfl
  rw [heff, hpl']
  by_cases hq : ∃ x y, x ≠ [] ∧ y ≠ [] ∧ x ++ y = ks ∧ D.valueAt (b ++ Tomllib.names x) ≠ none ∧ inlined (D.valueAt (b ++ Tomllib.names x)) = false
  · -- a value on the way
    rw [if_pos (show D.crashes (.table w1 (.arr t) w2 c) from Or.inl (hway.mpr hq))]
    obtain ⟨x, y, hx, hy, e, hv, hi⟩ := hq
    cases hv' : D.valueAt (b ++ Tomllib.names x) with
    | none => exact absurd hv' hv
    | some v =>
      obtain ⟨a, fp, k1, _⟩ := (g.slot _ (hwx x y e)).val v hv'
      have hch : ∃ c, v.children = .count c := by
        cases v with
        | leaf s => exact ⟨_, rfl⟩
        | arr es c1 c2 => exact ⟨_, rfl⟩
        | itab kvs ws =>
          rw [hv'] at hi
          simp [inlined] at hi
      obtain ⟨c, hch⟩ := hch
      rw [hch] at k1
      have := implicitLoop_stop x y st.map b true hy (hwx x y e) (fun x' k z e' => by
        refine g.listedAbove (g.apart hpl) (q := Tomllib.names z) (hwx x' (k :: z ++ y) (by rw [← e, ← e']; simp)) ?_
        rw [show b ++ Tomllib.names x' ++ Key.str k :: Tomllib.names z = b ++ Tomllib.names x by rw [← e', names_append]; simp [Tomllib.names], hv']
        simp) k1 (fun h => absurd h hx)
      rw [arrAgain, arrPush, addImplicitTables_eq g hO (t := .arr t) hks', ← e, this]
      refine ⟨.implicitStd, ?_⟩
      split <;> rfl
  · have hcr : D.crashes (.table w1 (.arr t) w2 c) ↔ bare (D.valueAt (b ++ Tomllib.names ks)) = true ∧ (D.opened.getLastD []).isPrefixOf t.names := by
      rw [crashes, hway, hTt]
      constructor
      · rintro (h1 | h1)
        · exact absurd h1 hq
        · exact h1
      · exact .inr
    have hcase : ∀ x y, x ≠ [] → x ++ y = ks → (∃ v a, D.valueAt (b ++ Tomllib.names x) = some v ∧ KP st.map (b ++ Tomllib.names x) = some ⟨some a, v.children⟩) ∨
        (D.valueAt (b ++ Tomllib.names x) = none ∧ D.TabEntry (KP st.map) st.heap (b ++ Tomllib.names x)) ∨ (D.valueAt (b ++ Tomllib.names x) = none ∧ KP st.map (b ++ Tomllib.names x) = none) := by
      intro x y hx e
      have hsl := g.slot _ (hwx x y e)
      cases hv : D.valueAt (b ++ Tomllib.names x) with
      | some v =>
        obtain ⟨a, fp, k1, _⟩ := hsl.val v hv
        exact .inl ⟨v, a, rfl, k1⟩
      | none =>
        by_cases ht : D.isTable (b ++ Tomllib.names x)
        · exact .inr (.inl ⟨rfl, hsl.tab ht⟩)
        · exact .inr (.inr ⟨rfl, hsl.none hv (hcnt' x y hx e) ht⟩)
    have hel := hO.elem g
    have htb := (g.slot b hO.wf.2.1).tab hel.1
    have hsome : ∀ x y, x ++ y = ks → x ≠ [] → (D.valueAt (b ++ Tomllib.names x) ≠ none ∨ D.count (b ++ Tomllib.names x) ≠ none ∨ D.isTable (b ++ Tomllib.names x)) → KP st.map (b ++ Tomllib.names x) ≠ none := by
      intro x y e hx hor
      have hsl := g.slot _ (hwx x y e)
      rcases hor with h1 | h1 | h1
      · obtain ⟨v, hv⟩ := Option.ne_none_iff_exists'.mp h1
        obtain ⟨a, fp, k1, _⟩ := hsl.val v hv
        rw [k1]; simp
      · obtain ⟨v, hv⟩ := Option.ne_none_iff_exists'.mp h1
        rw [hsl.arr v hv]; simp
      · obtain ⟨v, l, k1, _⟩ := hsl.tab h1
        rw [k1]; simp
    obtain ⟨m1, i1, i2, i3⟩ := implicitLoop_through ks st.map b true hne hwk (by obtain ⟨v, l, k1, _⟩ := htb; exact ⟨v, l, k1⟩)
      (fun x k y hx e ee he => by
        rcases hcase x (k :: y) hx e with ⟨v, a, h1, h2⟩ | ⟨_, v, l, h2, _⟩ | ⟨_, h2⟩
        · rw [he] at h2
          cases h2
          cases v with
          | itab kvs ws => exact ⟨_, rfl⟩
          | leaf s => exact absurd ⟨x, k :: y, hx, by simp, e, by rw [h1]; simp, by rw [h1]; rfl⟩ hq
          | arr es c1 c2 => exact absurd ⟨x, k :: y, hx, by simp, e, by rw [h1]; simp, by rw [h1]; rfl⟩ hq
        · rw [he] at h2
          cases h2
          exact ⟨l, rfl⟩
        · rw [he] at h2
          simp at h2)
      (fun x k y hy e v l he hk => by
        have e' : (x ++ [k]) ++ y = ks := by simp [← e]
        refine hsome (x ++ [k]) y e' (by simp) ?_
        have hpn : b ++ Tomllib.names (x ++ [k]) = b ++ Tomllib.names x ++ [.str k] := by simp [Tomllib.names]
        rw [hpn]
        have htab : D.TabEntry (KP st.map) st.heap (b ++ Tomllib.names x) → D.valueAt (b ++ Tomllib.names x ++ [.str k]) ≠ none ∨ D.count (b ++ Tomllib.names x ++ [.str k]) ≠ none ∨
            D.isTable (b ++ Tomllib.names x ++ [.str k]) := by
          rintro ⟨v', l', h1, h2, _⟩
          rw [he] at h1
          cases h1
          refine h.down [] _ k ?_ (by simp)
          unfold Lists at h2
          split at h2
          next h0 =>
            rcases (h2.2 k).mp hk with h3 | h3
            · rw [h0]; exact mem_namesOf.mp h3
            · rw [List.append_eq_nil_iff] at h0
              have hx : x = [] := by simpa [Tomllib.names] using h0.2
              have hA : A = [] := hO.wf.2.2.1.mpr h0.1
              subst hx
              rw [h0.1]
              unfold Sections.clear at hcl
              rw [hks', hA, ← e] at hcl
              simp only [List.nil_append, List.headD_cons] at hcl
              refine hcl ?_ h3
              cases y with
              | nil => exact absurd rfl hy
              | cons => simp
          · rw [h2] at hk; exact mem_namesOf.mp hk
        by_cases hx : x = []
        · subst hx
          exact htab (by simpa [Tomllib.names] using htb)
        · rcases hcase x (k :: y) hx e with ⟨v', a, h1, h2⟩ | ⟨_, h2⟩ | ⟨_, h2⟩
          · rw [he] at h2
            simp only [Option.some.injEq, HashValue.mk.injEq] at h2
            left
            refine valueAt_child h1 ?_
            rw [← h2.2]
            exact hk
          · exact htab h2
          · rw [he] at h2; simp at h2)
    have hpush : arrPush st.map st.heap (.arr t) cts cis = .ok (m1, cts ++ [.arr t], cis ++ [0]) := by
      rw [arrPush, addImplicitTables_eq g hO (t := .arr t) hks', i1]; rfl
    have hch0 := hO.chain g
    have hch1 : TChain (KP m1) cts cis A b := hch0.congr fun r hr hn => by
      refine i3 r (PathWf.pre hO.wf.2.1 hr) fun x k y _ h0 => hn ?_
      have h1 := hr.length_le
      rw [h0] at h1
      have hx : x = [] := by
        simp [Tomllib.names] at h1
        exact List.length_eq_zero_iff.mp (by omega)
      rw [h0, hx]; simp [Tomllib.names]
    have hTne : b ++ Tomllib.names ks ≠ [] := by simp [names_ne hne]
    have hstr : ∀ x k y, x ++ k :: y = ks → b ++ Tomllib.names x ≠ b ++ Tomllib.names ks := by
      intro x k y e he
      rw [← e] at he
      have := congrArg List.length he
      simp [Tomllib.names] at this
    have hT1 : KP m1 (b ++ Tomllib.names ks) = KP st.map (b ++ Tomllib.names ks) := i3 _ hwk fun x k y e => (hstr x k y e).symm
    have hfin : ∀ (m : KMap) (ts : List TableType) (is : List Nat) (z : Out (Bool × Str × Str)), getArrayTableKey m st.heap ts is = z →
        (∃ y, z = .ok y) → ∃ y, (((.ok (m, ts, is) : Out (KMap × List TableType × List Nat)).bind fun x => (getArrayTableKey x.1 st.heap x.2.1 x.2.2).bind fun y =>
      if !y.1 then .ok ({ st with keychain := [], lastArrayTables := x.2.1, lastArrayTablesIndex := x.2.2, arrayError := false, map := x.1, errors := st.errors ++ [.invalidTable y.2.1 st.lineCount 0 []] }, TableType.arr t)
      else .ok ({ st with keychain := [], lastArrayTables := x.2.1, lastArrayTablesIndex := x.2.2, arrayError := false, map := (if x.1.contains y.2.2 then x.1 else x.1.insert y.2.2 ⟨none, .count 1⟩).insert y.2.1 ⟨none, .keys []⟩, lastTable := some (.arr t) }, TableType.arr t)) : Out (PState × TableType)) = .ok y := by
      rintro m ts is z hz ⟨⟨v, f, pk⟩, rfl⟩
      simp only [Out.bind, hz]
      cases v <;> exact ⟨_, rfl⟩
    by_cases hpre : (D.opened.getLastD []).isPrefixOf t.names
    · rw [if_pos hpre, hpush]
      have hkey := topAny (h := st.heap) hch1 hw hks' hne i2 0
      have hidx : arrTableIndex m1 (keyOf [] (b ++ Tomllib.names ks)) 0 = if bare (D.valueAt (b ++ Tomllib.names ks)) then .panic .underflow else arrTableIndex m1 (keyOf [] (b ++ Tomllib.names ks)) 0 := by
        split
        next hb =>
          unfold arrTableIndex
          rw [KP_ne hTne, hT1]
          rcases hcase ks [] hne (by simp) with ⟨v, a, h1, h2⟩ | ⟨h1, _⟩ | ⟨h1, _⟩
          · rw [h2]
            rw [h1] at hb
            cases v with
            | leaf s => rfl
            | arr es c1 c2 =>
              cases es with
              | nil => rfl
              | cons => simp [bare] at hb
            | itab => simp [bare] at hb
          · rw [h1] at hb; simp [bare] at hb
          · rw [h1] at hb; simp [bare] at hb
        · rfl
      by_cases hb : bare (D.valueAt (b ++ Tomllib.names ks)) = true
      · rw [if_pos (hcr.mpr ⟨hb, hpre⟩)]
        rw [if_pos hb] at hidx
        rw [hidx] at hkey
        simp only [Out.bind, hkey]
        exact ⟨_, rfl⟩
      · rw [if_neg fun hc => hb (hcr.mp hc).1]
        refine hfin _ _ _ _ hkey ?_
        have : ∃ i, arrTableIndex m1 (keyOf [] (b ++ Tomllib.names ks)) 0 = .ok i := by
          unfold arrTableIndex
          rw [KP_ne hTne, hT1]
          rcases hcase ks [] hne (by simp) with ⟨v, a, h1, h2⟩ | ⟨h1, v, l, h2, _⟩ | ⟨h1, h2⟩
          · rw [h2]
            rw [h1] at hb
            cases v with
            | leaf s => simp [bare] at hb
            | arr es c1 c2 =>
              cases es with
              | nil => simp [bare] at hb
              | cons => simp [VT.children, Elems.kinds]
            | itab => simp [VT.children]
          · rw [h2]; exact ⟨_, rfl⟩
          · rw [h2]; exact ⟨_, rfl⟩
        obtain ⟨i, hi⟩ := this
        rw [hi]
        exact ⟨_, rfl⟩
    · rw [if_neg (fun hc => hpre (hcr.mp hc).2), if_neg hpre, arrAgain, hpush]
      have hpar := hch1.parentNew hw hks' hne 0
      simp only [Out.bind_eq, Out.bind, hpar, SMap.contains, KP_ne hTne, hT1, arrNext, incrementArrayTableIndex, List.getLast?_concat, List.dropLast_concat]
      have hchain : ∀ hv : HashValue, TChain (KP (m1.insert (keyOf [] (b ++ Tomllib.names ks)) hv)) cts cis A b := fun hv => hch1.congr fun r hr hn => by
        have hrw := PathWf.pre hO.wf.2.1 hr
        rw [← parP_ne hTne, KP_insert hwk hrw, if_neg]
        rintro rfl
        have h1 := hr.length_le
        simp [Tomllib.names] at h1
        exact hne (List.length_eq_zero_iff.mp (by omega))
      have hother : ∀ hv : HashValue, ∀ x k y, x ++ k :: y = ks → ∃ v l, KP (m1.insert (keyOf [] (b ++ Tomllib.names ks)) hv) (b ++ Tomllib.names x) = some ⟨v, .keys l⟩ ∧ k ∈ l := fun hv x k y e => by
        rw [← parP_ne hTne, KP_insert hwk (hwx x (k :: y) e), if_neg (Ne.symm (hstr x k y e))]
        exact i2 x k y e
      have hself : ∀ hv : HashValue, KP (m1.insert (keyOf [] (b ++ Tomllib.names ks)) hv) (b ++ Tomllib.names ks) = some hv := fun hv => by
        rw [← parP_ne hTne, KP_insert hwk hwk, if_pos rfl]
      cases he : KP st.map (b ++ Tomllib.names ks) with
      | none =>
        have hkey := topAny (h := st.heap) hch1 hw hks' hne i2 0
        simp only [Option.isSome_none, Bool.false_eq_true, if_false]
        refine hfin _ _ _ _ hkey ?_
        unfold arrTableIndex
        rw [KP_ne hTne, hT1, he]
        exact ⟨_, rfl⟩
      | some e =>
        obtain ⟨ev, es⟩ := e
        simp only [Option.isSome_some, if_true]
        cases es with
        | keys l =>
          have hkey := topAny (h := st.heap) hch1 hw hks' hne i2 1
          refine hfin _ _ _ _ hkey ?_
          unfold arrTableIndex
          rw [KP_ne hTne, hT1, he]
          exact ⟨_, rfl⟩
        | count n =>
          have hkey := topAny (h := st.heap) (hchain ⟨ev, .count (n + 1)⟩) hw hks' hne (hother _) 1
          refine hfin _ _ _ _ hkey ?_
          unfold arrTableIndex
          rw [KP_ne hTne, hself]
          exact ⟨_, rfl⟩

/-- No two pairs of what has been read have the same path. -/
theorem _root_.Tomllib.Account.plain : ∀ (ls : List (Str × ET)) {R : Account} {n : Nat}, R.doc.Plain → R.Allows n ls → (R.all n ls).doc.Plain
  | [], _, _, h, _ => h
  | (nl, e) :: ls, R, n, h, ha => by
    refine Account.plain ls ?_ ha.2
    have h1 := ha.1
    cases e with
    | blank w => exact h
    | comment w c => exact h
    | kv w1 k s v w2 c =>
      rw [Account.allows] at h1
      unfold Account.next
      dsimp only
      split
      · exact h
      next hl =>
        rw [if_neg hl] at h1
        split
        · exact h
        next hn =>
          have h2 := h1.resolve_right hn
          have := h.step (e := .kv w1 k s (.leaf (.int [])) w2 c) ⟨h2.1, by decide⟩
          refine ⟨?_, fun e' he => ?_, this.counts, this.low⟩
          · have h3 := this.once
            simpa [Sections.step] using h3
          · have he' : e' ∈ R.doc.vals ++ [(R.doc.here ++ [.str k], v)] := he
            rw [List.mem_append, List.mem_singleton] at he'
            rcases he' with he' | rfl
            · obtain ⟨b', k', e1, e2⟩ := h.keyed e' he'
              exact ⟨b', k', e1, by simp [Sections.step, e2]⟩
            · exact ⟨R.doc.here, k, rfl, by simp [Sections.step]⟩
    | table w1 t w2 c =>
      cases t with
      | std t =>
        rw [Account.next]
        split
        next hf => exact h.step hf
        · exact ⟨h.once, h.keyed, h.counts, h.low⟩
      | arr t => exact h.step (e := .table w1 (.arr t) w2 c) h1

theorem _root_.Tomllib.Account.plain_of {ls : List (Str × ET)} (ha : ({} : Account).Allows 1 ls) : (Account.of ls).doc.Plain :=
  Account.plain ls ⟨by simp, by simp, by simp [count], by simp⟩ ha

/-- The header of an array of tables that goes into an inline table, and into no array of tables that is not open. -/
theorem RSim.within {R : Account} {st : PState} (h : RSim R st) (hpl : R.doc.Plain) {w1 w2 : Str} {t : Table} {c : Option Str} (hw : (TableType.arr t).wf)
    (hap : R.doc.apart t.names) (hcl : R.doc.clear t.names) (hi : ∃ a ∈ onWay t.names, a ≠ t.names ∧ inlined (R.doc.valueAt (R.doc.target a)) = true)
    (hs : ¬ R.doc.shut (.table w1 (.arr t) w2 c)) :
    if R.doc.crashes (.table w1 (.arr t) w2 c) then ∃ x, (ET.table w1 (.arr t) w2 c).eff st = .panic x else ∃ st', (ET.table w1 (.arr t) w2 c).eff st = .ok st' := by
  have hx : ∃ E lt ae, R.doc.SimE E { st with arrayError := ae, lastTable := lt } := by
    unfold RSim at h
    split at h
    · obtain ⟨_, _, lt, h3⟩ := h
      exact ⟨_, lt, false, h3⟩
    · exact ⟨_, st.lastTable, st.arrayError, h⟩
  obtain ⟨E, lt, ae, hx⟩ := hx
  have hN := wf_names hw
  obtain ⟨cts0, cis0, A0, b0, hO0, hT0, hop⟩ := hx.stack
  have g := hx.good
  obtain ⟨a0, ha0, hne0, hi0⟩ := hi
  obtain ⟨ha01, ha02⟩ := mem_onWay.mp ha0
  have hv0 : R.doc.valueAt (R.doc.target a0) ≠ none := by
    intro h0
    rw [h0] at hi0
    simp [inlined] at hi0
  have hin : t.names ∉ R.doc.opened := by
    intro hin
    rw [hop, List.mem_map] at hin
    obtain ⟨u, hu, hun⟩ := hin
    have hA := (hO0.counted g u hu).2.1
    rw [hun] at hA
    exact hv0 (hO0.free g ha01 (ha02.trans hA))
  have hall : ∀ a ∈ onWay t.names, a ≠ t.names → R.doc.count (R.doc.target a) ≠ none → a ∈ R.doc.opened ∧ (R.doc.opened.getLastD []).isPrefixOf t.names := by
    intro a ha hne hca
    refine ⟨Classical.byContradiction fun hn => hs ⟨hap, hin, a, ha, hne, hca, .inl hn⟩, Classical.byContradiction fun hn => hs ⟨hap, hin, a, ha, hne, hca, .inr hn⟩⟩
  have hT : R.doc.count (R.doc.target t.names) = none := by
    refine Classical.byContradiction fun hc => ?_
    obtain ⟨n, hn⟩ := Option.ne_none_iff_exists'.mp hc
    have hsp : R.doc.Spot (R.doc.target t.names) := .inr (.inr (.inl ⟨_, count_mem hn, rfl⟩))
    have hno := g.noVal (g.closed _ hsp) ((g.slot _ (g.wf _ hsp)).val_arr hc)
    obtain ⟨v, hv⟩ := Option.ne_none_iff_exists'.mp hv0
    obtain ⟨e, s, he, e1, _⟩ := valueAt_entry hv
    refine hno e he (List.IsPrefix.trans ⟨s, e1.symm⟩ ((R.doc.target_path ha01).trans ?_))
    obtain ⟨y, hy⟩ := ha02
    have hyne : y ≠ [] := by
      rintro rfl
      rw [List.append_nil] at hy
      exact hne0 hy
    unfold target
    rw [show t.names.dropLast = a0 ++ y.dropLast by rw [← hy, List.dropLast_append_of_ne_nil hyne], path_append]
    exact (R.doc.path_up y.dropLast _).trans (List.prefix_append _ _)
  have key := hx.arr_walk hpl (w1 := w1) (w2 := w2) (c := c) hw hap hcl (fun a ha hc => by
    by_cases e : a = t.names
    · rw [e] at hc; exact absurd hT hc
    · exact (hall a ha e hc).1) hin (by
    by_cases hl : (R.doc.opened.getLastD []).isPrefixOf t.names = true
    · exact .inr hl
    · left
      intro P hP hpre
      have hP' := hP
      rw [hop, List.mem_map] at hP'
      obtain ⟨u, hu, rfl⟩ := hP'
      obtain ⟨q1, q2, q3, q4⟩ := hO0.counted g u hu
      refine hl (hall _ (mem_onWay.mpr ⟨q3, List.isPrefixOf_iff_prefix.mp hpre⟩) (fun e => ?_) q1).2
      rw [← e] at hin
      exact hin hP)
  have hfl := arrayTableAct_flags t (st.pushKs (t.keys.map (·.key))) ae lt
  have hfl : (arrayTableAct t (PState.pushKs { st with arrayError := ae, lastTable := lt } (t.keys.map (·.key)))).map' (·.1.errors) = _ := hfl
  split at key
  next hc =>
    rw [if_pos hc]
    obtain ⟨x, h1⟩ := key
    rw [h1] at hfl
    cases hb : arrayTableAct t (st.pushKs (t.keys.map (·.key))) with
    | ok y => rw [hb] at hfl; simp [Out.map'] at hfl
    | fuel => rw [hb] at hfl; simp [Out.map'] at hfl
    | panic z => exact ⟨z, by simp only [ET.eff, TableType.eff, hb, Out.bind]⟩
  next hc =>
    rw [if_neg hc]
    obtain ⟨x, h1⟩ := key
    rw [h1] at hfl
    cases hb : arrayTableAct t (st.pushKs (t.keys.map (·.key))) with
    | ok y => exact ⟨y.1, by simp only [ET.eff, TableType.eff, hb, Out.bind]⟩
    | fuel => rw [hb] at hfl; simp [Out.map'] at hfl
    | panic z => rw [hb] at hfl; simp [Out.map'] at hfl

end Sections
end Tomllib
