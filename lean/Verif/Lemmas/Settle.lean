import Verif.Lemmas.Accept
import Verif.Lemmas.Calm
/-!
# What happens at a line that is not in order
-/

namespace Tomllib
namespace Sections

/-- The key of the header of an array of tables, when there is an entry for it. -/
theorem topKey {m : KMap} {h : Heap} {ts : List TableType} {is : List Nat} {A : List Str} {b : List Key} (hc : TChain (KP m) ts is A b) {t : Table} {ks : List Str}
    (hw : (TableType.arr t).wf) (hn : t.names = A ++ ks) (hne : ks ≠ []) (hb : ∀ x k y, x ++ k :: y = ks → ∃ v l, KP m (b ++ Tomllib.names x) = some ⟨v, .keys l⟩ ∧ k ∈ l)
    {e : HashValue} (he : KP m (b ++ Tomllib.names ks) = some e) (hv : (∃ a, e.value = some a) ∨ ∃ l, e.subkeys = .keys l) (j : Nat) :
    getArrayTableKey m h (ts ++ [.arr t]) (is ++ [j]) = match e.subkeys with
      | .keys _ => .ok (false, keyOf [] (b ++ Tomllib.names ks ++ [.idx j]), keyOf [] (b ++ Tomllib.names ks))
      | .count c => if c = 0 then .panic .underflow else .ok (false, keyOf [] (b ++ Tomllib.names ks ++ [.idx (c - 1)]), keyOf [] (b ++ Tomllib.names ks)) := by
  have hN : NamesWf t.names := Table.namesWf hw.2
  have hwk : PathWf (b ++ Tomllib.names ks) := hc.wf.2.1.append' (NamesWf.path (by rw [hn] at hN; exact hN.right))
  have hne' : b ++ Tomllib.names ks ≠ [] := by simp [names_ne hne]
  have hs := arr_step (m := m) hn hc.wf.2.2 hwk hne (fun x k y _ => hb x k y)
  rw [getArrayTableKey, hc.loop _ _ (by simp), arrayTableKeyLoop, hs]
  simp only [Out.bind_eq, Out.bind]
  rw [arr_full hn hwk hne]
  have hval : arrTableValid m (keyOf [] (b ++ Tomllib.names ks)) true = false := by
    unfold arrTableValid
    rw [KP_ne hne', he]
    obtain ⟨v, l⟩ := e
    rcases hv with ⟨a, rfl⟩ | ⟨l, rfl⟩
    · rfl
    · cases v <;> rfl
  have hk : ∀ i, keyOf [] (b ++ Tomllib.names ks) ++ idxStr i = keyOf [] (b ++ Tomllib.names ks ++ [.idx i]) := by
    intro i
    rw [keyOf_idx]
  have hidx : arrTableIndex m (keyOf [] (b ++ Tomllib.names ks)) j = match e.subkeys with
      | .keys _ => .ok j
      | .count c => if c = 0 then .panic .underflow else .ok (c - 1) := by
    unfold arrTableIndex
    rw [KP_ne hne', he]
    obtain ⟨v, l⟩ := e
    cases l <;> rfl
  rw [hval, hidx]
  obtain ⟨v, l⟩ := e
  cases l with
  | keys l => simp [arrayTableKeyLoop, hk]
  | count c =>
    by_cases h0 : c = 0
    · simp [h0]
    · simp [h0, arrayTableKeyLoop, hk]

/-- The header of an array of tables that is not in order. -/
theorem SimE.arr_refused {D : Sections} {st : PState} {E : List ParseError} (h : D.SimE E st) {w1 w2 : Str} {t : Table} {c : Option Str} (hw : (TableType.arr t).wf)
    (hap : D.apart t.names) (hcl : D.clear t.names) (hcnt : ∀ a ∈ onWay t.names, D.count (D.target a) ≠ none → a ∈ D.opened)
    (hor : t.names ∈ D.opened ∨ (∀ P ∈ D.opened, ¬ P.isPrefixOf t.names) ∨ (D.opened.getLastD []).isPrefixOf t.names)
    (hit : ∀ a ∈ onWay t.names, a ≠ t.names → ∀ kvs ws, D.valueAt (D.target a) ≠ some (.itab kvs ws)) (hnf : ¬ D.fits (.table w1 (.arr t) w2 c)) :
    if D.crashes (.table w1 (.arr t) w2 c) then ∃ x, (ET.table w1 (.arr t) w2 c).eff st = .panic x
    else ∃ st', (ET.table w1 (.arr t) w2 c).eff st = .ok st' ∧
      st'.errors = E ++ [.invalidTable (keyOf [] (D.target t.names ++ [.idx (D.badIndex t.names)])) st.lineCount 0 []] := by
  obtain ⟨cts0, cis0, A0, b0, hO0, hT0, hop⟩ := h.stack
  have hN := wf_names hw
  have g := h.good
  by_cases hin : t.names ∈ D.opened
  · refine absurd ⟨fun a ha => ⟨?_, fun _ hc => hcnt a ha hc⟩, .inl hin, hap, hcl⟩ hnf
    obtain ⟨ha1, ha2⟩ := mem_onWay.mp ha
    rw [hop, List.mem_map] at hin
    obtain ⟨u, hu, hun⟩ := hin
    have := (hO0.counted g u hu).2.1
    rw [hun] at this
    rw [Option.isNone_iff_eq_none]
    exact hO0.free g ha1 (ha2.trans this)
  have hor := hor.resolve_left hin
  obtain ⟨cts, cis, A, b, hO, ⟨ks, hks⟩, hAN, hfil, hpl⟩ := arrPlace_which (m := st.map) (h := st.heap) g hw hO0 hop hap hin hor
  obtain ⟨a1, a2⟩ := arrPop hO0 hT0
  have hks' : t.names = A ++ ks := hks.symm
  have hne : ks ≠ [] := by
    rintro rfl
    exact hAN (by rw [hks', List.append_nil])
  have hnopen : ∀ x y, x ≠ [] → x ++ y = ks → A ++ x ∉ D.opened := by
    intro x y hx e hm
    have : A ++ x ∈ D.opened.filter fun P => P.isPrefixOf t.names := by
      rw [List.mem_filter, List.isPrefixOf_iff_prefix]
      exact ⟨hm, y, by rw [List.append_assoc, e, hks']⟩
    rw [hfil, List.mem_map] at this
    obtain ⟨u, hu, e'⟩ := this
    have := (hO.counted g u hu).2.1.length_le
    rw [e'] at this
    simp at this
    have := List.length_pos_iff.mpr hx
    omega
  have hmw : ∀ x y, x ≠ [] → x ++ y = ks → A ++ x ∈ onWay t.names := fun x y hx e => mem_onWay.mpr ⟨by simp [hx], y, by rw [List.append_assoc, e, hks']⟩
  have hon : ∀ x y, x ≠ [] → x ++ y = ks → D.count (D.target (A ++ x)) = none := by
    intro x y hx e
    cases hc : D.count (D.target (A ++ x)) with
    | none => rfl
    | some n => exact absurd (hcnt (A ++ x) (hmw x y hx e) (by rw [hc]; simp)) (hnopen x y hx e)
  have hp := hO.path g
  have htf := fun x y => target_free hp.1 (fun x y hx _ e => hon x y hx e) x.length x y rfl
  have hcnt' : ∀ x y, x ≠ [] → x ++ y = ks → D.count (b ++ Tomllib.names x) = none := by
    intro x y hx e
    rw [← htf x y hx e]
    exact hon x y hx e
  have hTt : D.target t.names = b ++ Tomllib.names ks := by rw [hks']; exact htf ks [] hne (by simp)
  have hwk : PathWf (b ++ Tomllib.names ks) := hO.wf.2.1.append' (NamesWf.path (by
    have := hN.2
    rw [show (TableType.arr t).table.names = A ++ ks from hks'] at this
    exact this.right))
  have hwx : ∀ x y, x ++ y = ks → PathWf (b ++ Tomllib.names x) := by
    intro x y e
    rw [← e, names_append, ← List.append_assoc] at hwk
    exact hwk.left
  -- where a value can be
  have hway : (∃ a ∈ onWay t.names, a ≠ t.names ∧ (D.valueAt (D.target a)).isSome ∧ inlined (D.valueAt (D.target a)) = false) ↔ ∃ x y, x ≠ [] ∧ y ≠ [] ∧ x ++ y = ks ∧ D.valueAt (b ++ Tomllib.names x) ≠ none := by
    constructor
    · rintro ⟨a, ha, hne1, hs, _⟩
      obtain ⟨ha1, ha2⟩ := mem_onWay.mp ha
      rcases Nat.lt_or_ge A.length a.length with hl | hl
      · obtain ⟨x, rfl⟩ := List.prefix_of_prefix_length_le (l₁ := A) (l₂ := a) ⟨ks, hks⟩ ha2 (Nat.le_of_lt hl)
        have hx : x ≠ [] := by
          rintro rfl
          simp at hl
        obtain ⟨y, hy⟩ := ha2
        have e : x ++ y = ks := by
          rw [hks', List.append_assoc] at hy
          exact List.append_cancel_left hy
        refine ⟨x, y, hx, ?_, e, ?_⟩
        · rintro rfl
          rw [List.append_nil] at e
          exact hne1 (by rw [e, hks'])
        · rw [htf x y hx e] at hs
          intro h0
          rw [h0] at hs
          simp at hs
      · have := hO.free g ha1 (List.prefix_of_prefix_length_le ha2 ⟨ks, hks⟩ hl)
        rw [this] at hs
        simp at hs
    · rintro ⟨x, y, hx, hy, e, hv⟩
      have hne1 : A ++ x ≠ t.names := by rw [hks', ← e]; simp [hy]
      have hi := hit (A ++ x) (hmw x y hx e) hne1
      refine ⟨A ++ x, hmw x y hx e, hne1, ?_⟩
      rw [htf x y hx e] at hi ⊢
      cases hc : D.valueAt (b ++ Tomllib.names x) with
      | none => exact absurd hc hv
      | some v =>
        refine ⟨rfl, ?_⟩
        cases v with
        | itab kvs ws => exact absurd hc (hi kvs ws)
        | _ => rfl
  -- the effect
  have heff : (ET.table w1 (.arr t) w2 c).eff st = ((arrPlace st.map st.heap (.arr t) cts0 cis0).bind fun x => (getArrayTableKey x.1 st.heap x.2.1 x.2.2).bind fun y =>
      if !y.1 then .ok { st with keychain := [], lastArrayTables := x.2.1, lastArrayTablesIndex := x.2.2, arrayError := false, map := x.1, errors := st.errors ++ [.invalidTable y.2.1 st.lineCount 0 []] }
      else .ok { st with keychain := [], lastArrayTables := x.2.1, lastArrayTablesIndex := x.2.2, arrayError := false, map := (if x.1.contains y.2.2 then x.1 else x.1.insert y.2.2 ⟨none, .count 1⟩).insert y.2.1 ⟨none, .keys []⟩, lastTable := some (.arr t) }) := by
    rw [ET.eff, TableType.eff, arrayTableAct]
    have hlen : (st.pushKs (t.keys.map (·.key))).keychain.length = t.keys.length := by simp [PState.pushKs, h.kc]
    simp only [hlen, Nat.lt_irrefl, if_false, Nat.sub_self, List.take_zero]
    have e1 : (st.pushKs (t.keys.map (·.key))).lastArrayTables = st.lastArrayTables := rfl
    have e2 : (st.pushKs (t.keys.map (·.key))).lastArrayTablesIndex = st.lastArrayTablesIndex := rfl
    have e3 : (st.pushKs (t.keys.map (·.key))).map = st.map := rfl
    have e4 : (st.pushKs (t.keys.map (·.key))).heap = st.heap := rfl
    rw [e1, e2, e3, e4, a1, a2]
    cases arrPlace st.map st.heap (.arr t) cts0 cis0 with
    | ok x =>
      obtain ⟨m, ts, is⟩ := x
      simp only [Out.bind_eq, Out.bind]
      cases getArrayTableKey m st.heap ts is with
      | ok y =>
        obtain ⟨v, f, pk⟩ := y
        cases v <;> rfl
      | panic x => rfl
      | fuel => rfl
    | panic x => rfl
    | fuel => rfl
  rw [heff, hpl]
  have hsolid : ∀ x y v, x ≠ [] → x ++ y = ks → D.valueAt (b ++ Tomllib.names x) = some v → (∀ x' y', x' ≠ [] → y' ≠ [] → x' ++ y' = x → D.valueAt (b ++ Tomllib.names x') = none) →
      D.Solid (b ++ Tomllib.names x) := by
    intro x y v hx e hv hf
    have hel := hO.elem g
    exact g.first hel.1 hel.2 hO.wf.2.1 hx hv hf
  by_cases hq : ∃ x y, x ≠ [] ∧ y ≠ [] ∧ x ++ y = ks ∧ D.valueAt (b ++ Tomllib.names x) ≠ none
  · -- a value on the way
    rw [if_pos (show D.crashes (.table w1 (.arr t) w2 c) from Or.inl (hway.mpr hq))]
    obtain ⟨x, y, hx, hy, e, hv, hf⟩ : ∃ x y, x ≠ [] ∧ y ≠ [] ∧ x ++ y = ks ∧ D.valueAt (b ++ Tomllib.names x) ≠ none ∧
        ∀ x' y', x' ≠ [] → y' ≠ [] → x' ++ y' = x → D.valueAt (b ++ Tomllib.names x') = none := by
      have key : ∀ n x y, x.length = n → x ≠ [] → y ≠ [] → x ++ y = ks → D.valueAt (b ++ Tomllib.names x) ≠ none → ∃ x y, x ≠ [] ∧ y ≠ [] ∧ x ++ y = ks ∧ D.valueAt (b ++ Tomllib.names x) ≠ none ∧
        ∀ x' y', x' ≠ [] → y' ≠ [] → x' ++ y' = x → D.valueAt (b ++ Tomllib.names x') = none := by
        intro n
        induction n using Nat.strongRecOn with
        | ind n ih =>
          intro x y hn hx hy e hv
          by_cases hall : ∀ x' y', x' ≠ [] → y' ≠ [] → x' ++ y' = x → D.valueAt (b ++ Tomllib.names x') = none
          · exact ⟨x, y, hx, hy, e, hv, hall⟩
          · simp only [Classical.not_forall] at hall
            obtain ⟨x', y', hx', hy', e', hv'⟩ := hall
            refine ih x'.length ?_ x' (y' ++ y) rfl hx' (by simp [hy']) (by rw [← List.append_assoc, e', e]) hv'
            rw [← hn, ← e', List.length_append]
            have := List.length_pos_iff.mpr hy'
            omega
      obtain ⟨x, y, hx, hy, e, hv⟩ := hq
      exact key _ x y rfl hx hy e hv
    cases hv' : D.valueAt (b ++ Tomllib.names x) with
    | none => exact absurd hv' hv
    | some v =>
      have hsol := hsolid x y v hx e hv' hf
      obtain ⟨a, fp, k1, _⟩ := (g.slot _ (hwx x y e)).val v hv'
      have hch : ∃ c, v.children = .count c := by
        cases v with
        | leaf s => exact ⟨_, rfl⟩
        | arr es c1 c2 => exact ⟨_, rfl⟩
        | itab kvs ws =>
          refine absurd ?_ (hit (A ++ x) (hmw x y hx e) (by rw [hks', ← e]; simp [hy]) kvs ws)
          rw [htf x y hx e]; exact hv'
      obtain ⟨c, hch⟩ := hch
      rw [hch] at k1
      have := implicitLoop_stop x y st.map b true hy (hwx x y e) (fun x' k z e' => g.hasName (hsol.str _ _ (Tomllib.names z) (by rw [← e', names_append]; simp [Tomllib.names]))) k1 (fun h => absurd h hx)
      rw [arrAgain, arrPush, addImplicitTables_eq g hO (t := .arr t) hks', ← e, this]
      refine ⟨.implicitStd, ?_⟩
      split <;> rfl
  · have hval : ∀ x y, x ≠ [] → y ≠ [] → x ++ y = ks → D.valueAt (b ++ Tomllib.names x) = none := by
      intro x y hx hy e
      cases hv : D.valueAt (b ++ Tomllib.names x) with
      | none => rfl
      | some v => exact absurd ⟨x, y, hx, hy, e, by rw [hv]; simp⟩ hq
    have hcr : D.crashes (.table w1 (.arr t) w2 c) ↔ bare (D.valueAt (b ++ Tomllib.names ks)) = true ∧ (D.opened.getLastD []).isPrefixOf t.names := by
      rw [crashes, hway, hTt]
      constructor
      · rintro (h1 | h1)
        · exact absurd h1 hq
        · exact h1
      · exact .inr
    obtain ⟨m1, i1, i2, i3, i4, i5⟩ := enter_header g h.only h.down hO hw hks' hne (fun x y hx hy e => ⟨hval x y hx hy e, hcnt' x y hx e⟩) hcl
    have hpush : arrPush st.map st.heap (.arr t) cts cis = .ok (m1, cts ++ [.arr t], cis ++ [0]) := by
      rw [arrPush, i1]; rfl
    have hway' : D.way [] t.names = D.way [] A ++ wayN b ks := by rw [hks', way_append, hp.1, way_names D ks b fun x y hx _ e => hcnt' x y hx e]
    have i2' : Good { D with names := D.names ++ D.way [] t.names } (KP m1) st.heap := i2
    have hnm : ∀ x k y, x ++ k :: y = ks → (b ++ Tomllib.names x, k) ∈ D.names ++ D.way [] t.names := by
      intro x k y e
      rw [hway']
      have := (mem_wayN ks b _ k).mpr ⟨x, y, e, rfl⟩
      simp [this]
    have hO1 : Open { D with names := D.names ++ D.way [] t.names } cts cis A b := hO.mono (fun e he => by simp [he]) (fun _ _ _ => rfl)
    have hch1 := hO1.chain i2'
    have hTne : b ++ Tomllib.names ks ≠ [] := by simp [names_ne hne]
    have hsl := i2'.slot _ hwk
    -- there is an entry
    have hent : ∃ e, KP m1 (b ++ Tomllib.names ks) = some e ∧ ((∃ a v, e.value = some a ∧ e.subkeys = v.children ∧ D.valueAt (b ++ Tomllib.names ks) = some v) ∨
        ((∃ l, e.subkeys = .keys l) ∧ D.valueAt (b ++ Tomllib.names ks) = none)) := by
      cases hv : D.valueAt (b ++ Tomllib.names ks) with
      | some v =>
        obtain ⟨a, fp, k1, _⟩ := hsl.val v hv
        exact ⟨_, k1, .inl ⟨a, v, rfl, rfl, rfl⟩⟩
      | none =>
        have ht : D.isTable (b ++ Tomllib.names ks) := by
          refine Classical.byContradiction fun htT => hnf ?_
          refine ⟨fun a ha => ⟨?_, fun _ hc => hcnt a ha hc⟩, .inr ⟨by rw [hTt]; exact htT, by rw [hTt]; exact hcnt' ks [] hne (by simp), hor⟩, hap, hcl⟩
          rw [Option.isNone_iff_eq_none]
          by_cases e : a = t.names
          · rw [e, hTt]; exact hv
          · cases hv' : D.valueAt (D.target a) with
            | none => rfl
            | some v =>
            refine absurd (hway.mp ⟨a, ha, e, by rw [hv']; rfl, ?_⟩) hq
            rw [hv']
            cases v with
            | itab kvs ws => exact absurd hv' (hit a ha e kvs ws)
            | _ => rfl
        have ht1 : isTable { D with names := D.names ++ D.way [] t.names } (b ++ Tomllib.names ks) := by
          rcases ht with h1 | h1 | h1 | ⟨e, he, h1⟩
          · exact .inl h1
          · exact .inr (.inl h1)
          · exact .inr (.inr (.inl h1))
          · exact .inr (.inr (.inr ⟨e, by simp [he], h1⟩))
        obtain ⟨v, l, k1, _⟩ := hsl.tab ht1
        exact ⟨_, k1, .inr ⟨⟨l, rfl⟩, rfl⟩⟩
    obtain ⟨e, he, hcase⟩ := hent
    have hany : (∃ a, e.value = some a) ∨ ∃ l, e.subkeys = .keys l := by
      rcases hcase with ⟨a, v, h1, _⟩ | ⟨h1, _⟩
      · exact .inl ⟨a, h1⟩
      · exact .inr h1
    have hstr : ∀ x k y, x ++ k :: y = ks → b ++ Tomllib.names x ≠ b ++ Tomllib.names ks := by
      intro x k y e he
      rw [← e] at he
      have := congrArg List.length he
      simp [Tomllib.names] at this
    by_cases hpre : (D.opened.getLastD []).isPrefixOf t.names
    · rw [if_pos hpre, hpush]
      have hkey := topKey (h := st.heap) hch1 hw hks' hne (fun x k y e => i2'.hasName (hnm x k y e)) he hany 0
      simp only [Out.bind, hkey]
      rw [badIndex, hTt]
      simp only [hpre, true_or, if_true, Nat.add_zero]
      rcases hcase with ⟨a, v, h1, h2, h3⟩ | ⟨⟨l, h2⟩, h3⟩
      · rw [h2, h3]
        rw [h3] at hcr
        cases v with
        | leaf s =>
          rw [if_pos (hcr.mpr ⟨rfl, hpre⟩)]
          exact ⟨_, rfl⟩
        | arr es c1 c2 =>
          cases es with
          | nil =>
            rw [if_pos (hcr.mpr ⟨rfl, hpre⟩)]
            exact ⟨_, rfl⟩
          | cons v1 s1 cn r =>
            rw [if_neg (fun hc => by simp [bare] at hcr; exact hcr hc)]
            simp [VT.children, Elems.kinds, h.errs]
        | itab kvs ws =>
          rw [if_neg (fun hc => by simp [bare] at hcr; exact hcr hc)]
          simp [VT.children, h.errs]
      · rw [h2, h3]
        rw [h3] at hcr
        rw [if_neg (fun hc => by simp [bare] at hcr; exact hcr hc)]
        simp [h.errs]
    · rw [if_neg (fun hc => hpre (hcr.mp hc).2), if_neg hpre, arrAgain, hpush]
      have hpar := hch1.parentNew hw hks' hne 0
      have hcon : m1.contains (keyOf [] (b ++ Tomllib.names ks)) = true := by
        rw [SMap.contains, KP_ne hTne, he]; rfl
      simp only [Out.bind_eq, Out.bind, hpar, hcon, if_true, arrNext, incrementArrayTableIndex, KP_ne hTne, he, List.getLast?_concat, List.dropLast_concat]
      rw [badIndex, hTt]
      simp only [hpre]
      have hchain : ∀ hv : HashValue, TChain (KP (m1.insert (keyOf [] (b ++ Tomllib.names ks)) hv)) cts cis A b := fun hv => hch1.congr fun r hr hn => by
        have hrw := PathWf.pre hO.wf.2.1 hr
        rw [← parP_ne hTne, KP_insert hwk hrw, if_neg]
        rintro rfl
        have h1 := hr.length_le
        simp [Tomllib.names] at h1
        exact hne (List.length_eq_zero_iff.mp (by omega))
      have hother : ∀ hv : HashValue, ∀ x k y, x ++ k :: y = ks → ∃ v l, KP (m1.insert (keyOf [] (b ++ Tomllib.names ks)) hv) (b ++ Tomllib.names x) = some ⟨v, .keys l⟩ ∧ k ∈ l := fun hv x k y e => by
        rw [← parP_ne hTne, KP_insert hwk (hwx x (k :: y) e), if_neg (Ne.symm (hstr x k y e))]
        exact i2'.hasName (hnm x k y e)
      have hself : ∀ hv : HashValue, KP (m1.insert (keyOf [] (b ++ Tomllib.names ks)) hv) (b ++ Tomllib.names ks) = some hv := fun hv => by
        rw [← parP_ne hTne, KP_insert hwk hwk, if_pos rfl]
      obtain ⟨ev, es⟩ := e
      cases es with
      | keys l =>
        dsimp only
        have hkey := topKey (h := st.heap) hch1 hw hks' hne (fun x k y e => i2'.hasName (hnm x k y e)) he hany 1
        rw [hkey]
        rcases hcase with ⟨a, v, h1, h2, h3⟩ | ⟨_, h3⟩
        · rw [h3]
          cases v with
          | leaf s => simp [VT.children] at h2
          | arr es c1 c2 => simp [VT.children] at h2
          | itab kvs ws => simp [bare, h.errs]
        · rw [h3]
          simp [bare, h.errs]
      | count n =>
        rcases hcase with ⟨a, v, h1, h2, h3⟩ | ⟨⟨l, h2⟩, _⟩
        · dsimp only at h1 h2 ⊢
          subst h1
          have hkey := topKey (h := st.heap) (hchain ⟨some a, .count (n + 1)⟩) hw hks' hne (hother _) (hself _) (.inl ⟨a, rfl⟩) 1
          rw [hkey]
          rw [h3]
          cases v with
          | leaf s => simp [VT.children] at h2; simp [bare, h.errs, h2]
          | arr es c1 c2 =>
            simp [VT.children] at h2
            cases es with
            | nil => simp [Elems.kinds] at h2; simp [bare, h.errs, h2, Elems.kinds]
            | cons v1 s1 cn r => simp [Elems.kinds] at h2; simp [bare, h.errs, h2, Elems.kinds]
          | itab kvs ws => simp [VT.children] at h2
        · simp at h2

end Sections
end Tomllib
