import Verif.Lemmas.Exact
import Verif.Lemmas.Twin
/-!
# Values that are read without an error are sound
-/

namespace Tomllib

/-- There is a value in the entry. -/
def Valued (o : Option HashValue) : Prop := ∃ a c, o = some ⟨some a, c⟩

theorem Valued.upd {o : Option HashValue} (h : Valued o) (k : Key) : Valued (upd o k) := by
  obtain ⟨a, c, rfl⟩ := h
  cases c with
  | count c => exact ⟨a, _, rfl⟩
  | keys ks =>
    cases k with
    | str s => exact ⟨a, _, rfl⟩
    | idx i => exact ⟨a, _, rfl⟩

/-- Entries above `p` stay as they are, entries with values keep a value. -/
structure Stays (p : List Key) (m m' : KMap) : Prop where
  above : ∀ r, r <+: p → r ≠ p → KP m' r = KP m r
  value : ∀ q, PathWf q → Valued (KP m q) → Valued (KP m' q)

theorem Stays.refl (p : List Key) (m : KMap) : Stays p m m := ⟨fun _ _ _ => rfl, fun _ _ h => h⟩

theorem Stays.trans {p : List Key} {a b c : KMap} (h : Stays p a b) (h' : Stays p b c) : Stays p a c :=
  ⟨fun r hr hn => (h'.above r hr hn).trans (h.above r hr hn), fun q hq hv => h'.value q hq (h.value q hq hv)⟩

theorem insertKeyval_stays {p : List Key} {st st' : PState} {a : Addr} (h : At p st) (hk : PathWf st.keychain) (hne : st.keychain ≠ []) (hs : insertKeyval st a = .ok st') :
    Stays p st.map st'.map ∧ Valued (KP st'.map (p ++ st.keychain)) ∧ st'.keychain = st.keychain ∧ (st'.errors = [] → ¬ Valued (KP st.map (p ++ st.keychain))) := by
  have hw : PathWf (p ++ st.keychain) := h.wf.append' hk
  have hd : (p ++ st.keychain).dropLast = p ++ st.keychain.dropLast := List.dropLast_append_of_ne_nil hne
  have hne2 : p ++ st.keychain ≠ [] := by simp [hne]
  have hw' : PathWf (p ++ st.keychain.dropLast) := by
    rw [← hd]
    have := hw
    rw [← List.dropLast_concat_getLast hne2] at this
    exact this.left
  have hik : insertKeys st = .ok (keyOf [] (p ++ st.keychain), parP (p ++ st.keychain.dropLast)) := h.2.2 st.map st.heap st.keychain (fun _ _ _ => rfl) hk hne
  have hdn : p ++ st.keychain.dropLast ≠ p ++ st.keychain := by
    rw [← hd]
    intro e
    have := congrArg List.length e
    have : 0 < (p ++ st.keychain).length := List.length_pos_iff.mpr hne2
    simp only [List.length_dropLast] at *
    omega
  have hK : st.map.get? (keyOf [] (p ++ st.keychain)) = KP st.map (p ++ st.keychain) := by rw [KP, parP_ne hne2]
  simp only [insertKeyval, hik, Out.bind_eq, Out.bind, hK] at hs
  split at hs
  next b c hg =>
    have hs := Out.bind_ok.mp hs
    obtain ⟨v, _, hs⟩ := hs
    simp at hs; subst hs
    exact ⟨.refl _ _, ⟨b, c, hg⟩, rfl, by simp⟩
  next r hg =>
    rw [List.getLast?_eq_some_getLast hne] at hs
    have key : ∀ hv : HashValue, hv.value = some a → ∀ m, m = st.map.insert (keyOf [] (p ++ st.keychain)) hv →
        st' = { st with map := updateParent m (parP (p ++ st.keychain.dropLast)) (st.keychain.getLast hne) } →
        Stays p st.map st'.map ∧ Valued (KP st'.map (p ++ st.keychain)) ∧ st'.keychain = st.keychain ∧ (st'.errors = [] → ¬ Valued (KP st.map (p ++ st.keychain))) := by
      rintro ⟨_, c⟩ rfl m rfl rfl
      rw [← parP_ne hne2]
      have hq : ∀ q, PathWf q → KP (updateParent (st.map.insert (parP (p ++ st.keychain)) ⟨some a, c⟩) (parP (p ++ st.keychain.dropLast)) (st.keychain.getLast hne)) q =
          if q = p ++ st.keychain then some ⟨some a, c⟩ else if q = p ++ st.keychain.dropLast then upd (KP st.map q) (st.keychain.getLast hne) else KP st.map q := by
        intro q hq
        rw [KP_updateParent hw' hq, KP_insert hw hw', KP_insert hw hq, if_neg (Ne.symm hdn)]
        by_cases e1 : q = p ++ st.keychain
        · rw [if_pos e1, if_neg (by rw [e1]; exact hdn), if_pos e1.symm]
        · rw [if_neg e1, if_neg (Ne.symm e1)]
          by_cases e2 : q = p ++ st.keychain.dropLast
          · rw [if_pos e2, if_pos e2.symm, e2]
          · rw [if_neg e2, if_neg (Ne.symm e2)]
      refine ⟨⟨fun r hr hn => ?_, fun q hqw hv => ?_⟩, ⟨a, c, ?_⟩, rfl, fun _ hv => ?_⟩
      · dsimp only
        have hrw : PathWf r := by
          obtain ⟨x, e⟩ := hr
          have := h.wf
          rw [← e] at this
          exact this.left
        rw [hq r hrw, if_neg, if_neg]
        · have := prefix_not (kc := st.keychain.dropLast) (q := []) hr hn
          simpa using this
        · have := prefix_not (kc := st.keychain) (q := []) hr hn
          simpa using this
      · dsimp only
        rw [hq q hqw]
        split
        · exact ⟨a, c, rfl⟩
        · split
          · exact hv.upd _
          · exact hv
      · dsimp only
        rw [hq _ hw, if_pos rfl]
      · obtain ⟨b, c', e⟩ := hv
        exact hg b c' e
    simp only [Out.ok.injEq] at hs
    split at hs
    next hv _ => exact key { hv with value := some a } rfl _ rfl hs.symm
    next =>
      split at hs
      · exact key ⟨some a, .keys []⟩ rfl _ rfl hs.symm
      · exact key ⟨some a, .count 0⟩ rfl _ rfl hs.symm

theorem checkMixed_clean {st st' : PState} {t p : ArrayType} {L : List ArrayType} (hl : st.lastArrayType = L ++ [p]) (hs : checkMixed t st = .ok st') :
    st'.lastArrayType = L ++ [p] ∧ st'.map = st.map ∧ st'.heap = st.heap ∧ Frame st st' ∧ (st'.errors = [] → p = .none ∨ p = t) := by
  rw [checkMixed, hl, List.getLast?_concat] at hs
  dsimp only at hs
  split at hs
  next hp => simp at hs; subst hs; exact ⟨hl, rfl, rfl, .refl _, fun _ => hp⟩
  next hp =>
    split at hs
    · simp at hs
    · simp at hs
    · have key : ∀ b : Bool, (st.errors = [] → b = true) → ∀ e, (if b = true then Out.ok { st with errors := st.errors ++ [e] } else Out.ok st) = .ok st' →
          st'.lastArrayType = L ++ [p] ∧ st'.map = st.map ∧ st'.heap = st.heap ∧ Frame st st' ∧ (st'.errors = [] → p = .none ∨ p = t) := by
        intro b hb e hs
        cases b with
        | true =>
          rw [if_pos rfl] at hs
          simp only [Out.ok.injEq] at hs; subst hs
          exact ⟨hl, rfl, rfl, ⟨rfl, rfl, rfl, rfl, rfl⟩, by simp⟩
        | false =>
          rw [if_neg (by simp)] at hs
          simp only [Out.ok.injEq] at hs; subst hs
          exact ⟨hl, rfl, rfl, .refl _, fun he => by simpa using hb he⟩
      refine key _ (fun he => ?_) _ (by rw [← hl] at hs; exact hs)
      rw [he]; rfl

theorem arrayValueAct_stays {p kc : List Key} {i : Nat} {st st' : PState} {a : Addr} {v : VT} {fp : List Addr} {L : List ArrayType} {p0 : ArrayType} (h : At p st)
    (hk : PathWf kc) (hne : kc ≠ []) (hkc : st.keychain = kc ++ [.idx i]) (hr : v.Rep st.heap a fp) (hl : st.lastArrayType = L ++ [p0]) (hs : arrayValueAct a st = .ok st') :
    At p st' ∧ Stays p st.map st'.map ∧ st'.keychain = kc ++ [.idx (i + 1)] ∧ st'.lastArrayType = L ++ [v.kind] ∧ (st'.errors = [] → p0 = .none ∨ p0 = v.kind) := by
  obtain ⟨c, hc, hck⟩ := hr.kind
  have hpw : PathWf st.keychain := by rw [hkc]; exact hk.append hne (by simp)
  have hne1 : st.keychain ≠ [] := by rw [hkc]; simp
  simp only [arrayValueAct, Out.bind_eq, hc, Out.bind, hck] at hs
  have hs := Out.bind_ok.mp hs
  obtain ⟨s1, h1, hs⟩ := hs
  have hs := Out.bind_ok.mp hs
  obtain ⟨s2, h2, hs⟩ := hs
  obtain ⟨c1, c2, c3, c4, c5⟩ := checkMixed_clean hl h1
  have hat : At p { s1 with lastArrayType := s1.lastArrayType.dropLast ++ [v.kind] } := h.congr c4.lastTable c4.tables c4.index c4.err fun _ _ _ => by dsimp only; rw [c2]
  have hk1 : s1.keychain = st.keychain := c4.keychain
  obtain ⟨g1, g2, g3, g4⟩ := insertKeyval_stays hat (by dsimp only; rw [hk1]; exact hpw) (by dsimp only; rw [hk1]; exact hne1) h2
  have hf := insertKeyval_frame h2
  have hlat := insertKeyval_lat h2
  dsimp only at g1 g2 g3 hlat
  rw [c2] at g1
  rw [g3, hk1, hkc, List.getLast?_concat] at hs
  simp only [Out.ok.injEq, List.dropLast_concat] at hs
  subst hs
  refine ⟨?_, g1, rfl, ?_, fun he => ?_⟩
  · exact hat.congr hf.lastTable hf.tables hf.index hf.err fun r hr hn => by dsimp only; rw [c2]; exact g1.above r hr hn
  · dsimp only
    rw [hlat, c1]; simp
  · exact c5 ((insertKeyval_adds h2).clean he)

theorem keyvalAct_stays {p kc : List Key} {k : Str} {st st' : PState} {a : Addr} (h : At p st) (hk : PathWf kc) (hkw : KeyWf k)
    (hkc : st.keychain = kc ++ [.str k]) (hs : keyvalAct k a st = .ok st') :
    At p st' ∧ Stays p st.map st'.map ∧ st'.keychain = kc ∧ st'.lastArrayType = st.lastArrayType ∧ Valued (KP st'.map (p ++ kc ++ [.str k])) ∧
      (st'.errors = [] → ¬ Valued (KP st.map (p ++ kc ++ [.str k]))) := by
  have hpw : PathWf st.keychain := by rw [hkc]; exact hk.push hkw
  have hne1 : st.keychain ≠ [] := by rw [hkc]; simp
  have he : ¬ st.arrayError = true := by rw [h.1]; simp
  have hlat := keyvalAct_lat hs
  simp only [keyvalAct, Out.bind_eq, if_neg he, Out.bind_ok] at hs
  obtain ⟨s1, h1, hs⟩ := hs
  obtain ⟨g1, g2, g3, g4⟩ := insertKeyval_stays h hpw hne1 h1
  have hf := insertKeyval_frame h1
  simp at hs
  subst hs
  rw [hkc, ← List.append_assoc] at g2 g4
  refine ⟨?_, g1, by dsimp only; rw [g3, hkc]; simp, hlat, g2, g4⟩
  exact h.congr hf.lastTable hf.tables hf.index hf.err fun r hr hn => g1.above r hr hn

theorem Scalar.eff_clean {s : Scalar} {st st' : PState} (h : s.eff st = .ok st') :
    st'.map = st.map ∧ st'.lastArrayType = st.lastArrayType ∧ (st'.errors = [] → (VT.leaf s).sound = true) := by
  cases s with
  | dt d =>
    rw [VT.sound, DateTime.real_eq]
    rw [Scalar.eff] at h
    split at h
    next hv =>
      simp at h; subst h
      exact ⟨rfl, rfl, fun _ => hv⟩
    next hv =>
      rw [Out.bind_ok] at h
      obtain ⟨x, _, h⟩ := h
      simp at h; subst h
      exact ⟨rfl, rfl, by simp⟩
  | str x ty => cases ty <;> (simp [Scalar.eff] at h; subst h; exact ⟨rfl, rfl, fun _ => rfl⟩)
  | _ => simp [Scalar.eff] at h; subst h; exact ⟨rfl, rfl, fun _ => rfl⟩

theorem kinds_same {t : Elems} (h : adj .none t.kinds = false) : (t.kinds.all fun k => t.kinds.all fun k' => k = k') = true := by
  rw [adj_none] at h
  simp only [List.any_eq_false, List.all_eq_true] at h ⊢
  intro k hk k' hk'
  have := h k hk
  simp at this ⊢
  exact this k' hk'

mutual
theorem VT.eff_clean : ∀ (t : VT) {p : List Key} {st st' : PState}, At p st → PathWf st.keychain → st.keychain ≠ [] → t.wf → t.eff st = .ok st' →
    At p st' ∧ Stays p st.map st'.map ∧ st'.keychain = st.keychain ∧ st'.lastArrayType = st.lastArrayType ∧ (st'.errors = [] → t.sound = true)
  | .leaf s, p, st, st', hc, hk, hne, hw, h => by
    have hf := VT.eff_frame h
    rw [VT.eff, Out.bind_ok] at h
    obtain ⟨st1, h1, h⟩ := h
    simp at h; subst h
    obtain ⟨a1, a2, a3⟩ := Scalar.eff_clean h1
    refine ⟨hc.congr hf.lastTable hf.tables hf.index hf.err fun r _ _ => ?_, ?_, hf.keychain, a2, a3⟩
    · show KP st1.map r = _; rw [a1]
    · show Stays p st.map st1.map; rw [a1]; exact .refl _ _
  | .arr es c1 c2, p, st, st', hc, hk, hne, hw, h => by
    have hf := VT.eff_frame h
    rw [VT.eff, Out.bind_ok] at h
    obtain ⟨st1, h1, h⟩ := h
    simp at h; subst h
    rw [VT.wf] at hw
    obtain ⟨a1, a2, a3, a4, a5⟩ := Elems.eff_clean es (p := p) (st := st.openArr) (kc := st.keychain) (i := 0) (p0 := .none) (L := st.lastArrayType)
      (hc.congr rfl rfl rfl rfl fun _ _ _ => rfl) hk hne rfl hw.2.1 rfl h1
    refine ⟨hc.congr hf.lastTable hf.tables hf.index hf.err fun r hr hn => a2.above r hr hn, a2, hf.keychain, ?_, fun he => ?_⟩
    · obtain ⟨x, hx⟩ := a4
      show st1.lastArrayType.dropLast = _
      rw [hx]; simp
    · obtain ⟨b1, b2⟩ := a5 he
      rw [VT.sound, b1, kinds_same b2]; rfl
  | .itab kvs ws, p, st, st', hc, hk, hne, hw, h => by
    have hf := VT.eff_frame h
    rw [VT.eff, Out.bind_ok] at h
    obtain ⟨st1, h1, h⟩ := h
    simp at h; subst h
    rw [VT.wf] at hw
    obtain ⟨a1, a2, a3, a4, a5⟩ := Pairs.eff_clean kvs (ks := []) hc hk hne hw.2 (by simp) h1
    refine ⟨hc.congr hf.lastTable hf.tables hf.index hf.err fun r hr hn => a2.above r hr hn, a2, hf.keychain, a4, fun he => ?_⟩
    rw [VT.sound]
    exact (a5 he).1
theorem Elems.eff_clean : ∀ (t : Elems) {p : List Key} {st st' : PState} {kc : List Key} {i : Nat} {p0 : ArrayType} {L : List ArrayType},
    At p st → PathWf kc → kc ≠ [] → st.keychain = kc ++ [.idx i] → t.wf → st.lastArrayType = L ++ [p0] → t.eff st = .ok st' →
    At p st' ∧ Stays p st.map st'.map ∧ (∃ j, st'.keychain = kc ++ [.idx j]) ∧ (∃ x, st'.lastArrayType = L ++ [x]) ∧ (st'.errors = [] → t.sound = true ∧ adj p0 t.kinds = false)
  | .nil, p, st, st', kc, i, p0, L, hc, hk, hne, hkc, hw, hl, h => by
    simp [Elems.eff] at h; subst h
    exact ⟨hc, .refl _ _, ⟨_, hkc⟩, ⟨_, hl⟩, fun _ => ⟨rfl, rfl⟩⟩
  | .cons v sep cn r, p, st, st', kc, i, p0, L, hc, hk, hne, hkc, hw, hl, h => by
    rw [Elems.eff, Out.bind_ok] at h
    obtain ⟨st1, h1, h⟩ := h
    rw [Out.bind_ok] at h
    obtain ⟨st2, h2, h⟩ := h
    rw [Elems.wf] at hw
    have hpw : PathWf st.keychain := by rw [hkc]; exact hk.append hne (by simp)
    have hne1 : st.keychain ≠ [] := by rw [hkc]; simp
    obtain ⟨a1, a2, a3, a4, a5⟩ := VT.eff_clean v hc hpw hne1 hw.1 h1
    obtain ⟨fp, hr⟩ := VT.rep_after h1
    obtain ⟨b1, b2, b3, b4, b5⟩ := arrayValueAct_stays a1 hk hne (a3.trans hkc) hr (a4.trans hl) h2
    obtain ⟨c1, c2, c3, c4, c5⟩ := Elems.eff_clean r b1 hk hne b3 hw.2.2.2 b4 h
    refine ⟨c1, (a2.trans b2).trans c2, c3, c4, fun he => ?_⟩
    obtain ⟨d1, d2⟩ := c5 he
    have he2 := (Elems.eff_adds h).clean he
    have he1 := (arrayValueAct_adds h2).clean he2
    rw [Elems.sound, a5 he1, d1, Elems.kinds, adj, d2]
    refine ⟨rfl, ?_⟩
    have := b5 he2
    simp only [Bool.or_false, decide_eq_false_iff_not]
    rintro ⟨x, y⟩
    exact this.elim x y
theorem Pairs.eff_clean : ∀ (t : Pairs) {p : List Key} {st st' : PState} {ks : List Str}, At p st → PathWf st.keychain → st.keychain ≠ [] → t.wf →
    (∀ k ∈ ks, KeyWf k ∧ Valued (KP st.map (p ++ st.keychain ++ [.str k]))) → t.eff st = .ok st' →
    At p st' ∧ Stays p st.map st'.map ∧ st'.keychain = st.keychain ∧ st'.lastArrayType = st.lastArrayType ∧ (st'.errors = [] → t.sound = true ∧ ∀ k ∈ t.keys, k ∉ ks)
  | .nil, p, st, st', ks, hc, hk, hne, hw, hv, h => by
    simp [Pairs.eff] at h; subst h
    exact ⟨hc, .refl _ _, rfl, rfl, fun _ => ⟨rfl, by simp [Pairs.keys]⟩⟩
  | .cons k s v c1 c2 r, p, st, st', ks, hc, hk, hne, hw, hv, h => by
    rw [Pairs.eff, Out.bind_ok] at h
    obtain ⟨st1, h1, h⟩ := h
    rw [Out.bind_ok] at h
    obtain ⟨st2, h2, h⟩ := h
    rw [Pairs.wf] at hw
    have hcp : At p (st.pushK k) := hc.congr rfl rfl rfl rfl fun _ _ _ => rfl
    have hkc : (st.pushK k).keychain = st.keychain ++ [.str k] := rfl
    have hkw : KeyWf k := hw.1
    obtain ⟨a1, a2, a3, a4, a5⟩ := VT.eff_clean v hcp (by rw [hkc]; exact hk.push hkw) (by rw [hkc]; simp) hw.2.2.1 h1
    obtain ⟨b1, b2, b3, b4, b5, b6⟩ := keyvalAct_stays a1 hk hkw (a3.trans hkc) h2
    have hs12 : Stays p st.map st2.map := a2.trans b2
    have hwp := hc.wf.append' hk
    obtain ⟨c1', c2', c3, c4, c5⟩ := Pairs.eff_clean r (ks := k :: ks) b1 (by rw [b3]; exact hk) (by rw [b3]; exact hne) hw.2.2.2.2.2 (by
      intro k' hk'
      rw [b3]
      rcases List.mem_cons.mp hk' with rfl | hk'
      · exact ⟨hkw, b5⟩
      · exact ⟨(hv k' hk').1, hs12.value _ (hwp.push (hv k' hk').1) (hv k' hk').2⟩) h
    refine ⟨c1', hs12.trans c2', c3.trans b3, c4.trans (b4.trans a4), fun he => ?_⟩
    obtain ⟨d1, d2⟩ := c5 he
    have he2 := (Pairs.eff_adds h).clean he
    have he1 := (keyvalAct_adds h2).clean he2
    have hnk : k ∉ r.keys := fun hm => d2 k hm (by simp)
    refine ⟨?_, ?_⟩
    · rw [Pairs.sound, a5 he1, d1]
      simp [hnk]
    · intro k' hk' hin
      rw [Pairs.keys, List.mem_cons] at hk'
      rcases hk' with rfl | hk'
      · exact b6 he2 (a2.value _ (hwp.push hkw) (hv k' hin).2)
      · exact d2 k' hk' (by simp [hin])
end

end Tomllib
