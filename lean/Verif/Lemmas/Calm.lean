import Verif.Lemmas.Clean
import Verif.Lemmas.Quiet
/-!
# Reading values does not panic while it is known which table they belong to
-/

namespace Tomllib

/-- The keys that follow belong to the table at `p`. -/
structure Calm (p : List Key) (st : PState) : Prop where
  inv : Inv st
  at' : At p st
  level : Level st

theorem insertKeyval_calm {p : List Key} {st : PState} (h : Calm p st) (ht : Top st) (hk : PathWf st.keychain) (hne : st.keychain ≠ []) :
    ∃ st', insertKeyval st (st.heap.length - 1) = .ok st' := by
  obtain ⟨v, hv⟩ := Top.toVal h.inv ht
  have hx : insertKeys st = .ok _ := h.at'.2.2 st.map st.heap st.keychain (fun _ _ _ => rfl) hk hne
  simp only [insertKeyval, hx, Out.bind_eq, Out.bind, hv, List.getLast?_eq_some_getLast hne]
  split <;> exact ⟨_, rfl⟩

theorem arrayValueAct_calm {p kc : List Key} {i : Nat} {st : PState} {L : List ArrayType} {p0 : ArrayType} (h : Calm p st) (ht : Top st) (hk : PathWf kc) (hne : kc ≠ [])
    (hkc : st.keychain = kc ++ [.idx i]) (hL : st.lastArrayType = L ++ [p0]) : ∃ st', arrayValueAct (st.heap.length - 1) st = .ok st' := by
  have hpos : 0 < st.heap.length := List.length_pos_iff.mpr ht.pos
  have hv : st.heap[st.heap.length - 1]? = some st.heap[st.heap.length - 1] := List.getElem?_eq_getElem (by omega)
  obtain ⟨t, htt⟩ := TVal.arrayType_ok (v := st.heap[st.heap.length - 1]) (by intro e; rw [e] at hv; exact ht.val hv)
  have hpw : PathWf st.keychain := by rw [hkc]; exact hk.append hne (by simp)
  have hne1 : st.keychain ≠ [] := by rw [hkc]; simp
  simp only [arrayValueAct, Out.bind_eq, hv, Out.bind, htt]
  have e1 := checkMixed_at (k := t) h.level h.at' hk hne hkc hL
  have hall := checkMixed_all (t := t) h.inv ht
  rw [e1] at hall ⊢
  obtain ⟨i1, t1⟩ := hall
  dsimp only
  obtain ⟨st2, e2⟩ := insertKeyval_calm (p := p) (st := { st with errors := if p0 = .none ∨ p0 = t then st.errors else mixedAt (p ++ kc) i st.lineCount st.errors, lastArrayType := st.lastArrayType.dropLast ++ [t] })
    ⟨Inv.congr i1 rfl rfl rfl rfl rfl rfl rfl, h.at'.congr rfl rfl rfl rfl fun _ _ _ => rfl, h.level.congr rfl rfl rfl⟩ ⟨t1.1, t1.2, t1.3⟩ hpw hne1
  have k2 : st2.keychain = st.keychain := (insertKeyval_frame e2).keychain
  rw [e2]
  dsimp only
  rw [k2, List.getLast?_eq_some_getLast hne1]
  exact ⟨_, rfl⟩

theorem keyvalAct_calm {p : List Key} {st : PState} (k : Str) (h : Calm p st) (ht : Top st) (hk : PathWf st.keychain) (hne : st.keychain ≠ []) :
    ∃ st', keyvalAct k (st.heap.length - 1) st = .ok st' := by
  obtain ⟨st1, e1⟩ := insertKeyval_calm h ht hk hne
  have he : ¬ st.arrayError = true := by rw [h.at'.1]; simp
  simp only [keyvalAct, Out.bind_eq, if_neg he, e1, Out.bind]
  exact ⟨_, rfl⟩

theorem Scalar.eff_calm {p : List Key} {st : PState} (s : Scalar) (h : Calm p st) (hk : PathWf st.keychain) (hne : st.keychain ≠ []) : ∃ st', s.eff st = .ok st' := by
  unfold Scalar.eff
  split
  · split
    · exact ⟨_, rfl⟩
    · obtain ⟨v, P, e, _⟩ := h.level.fullKey h.at' hk hne
      rw [e]
      exact ⟨_, rfl⟩
  all_goals exact ⟨_, rfl⟩

mutual
theorem VT.eff_calm : ∀ (t : VT) {p : List Key} {st : PState}, Calm p st → PathWf st.keychain → st.keychain ≠ [] → t.wf → ∃ st', t.eff st = .ok st'
  | .leaf s, p, st, h, hk, hne, hw => by
    obtain ⟨st1, e⟩ := s.eff_calm h hk hne
    rw [VT.eff, e]
    exact ⟨_, rfl⟩
  | .arr es c1 c2, p, st, h, hk, hne, hw => by
    rw [VT.wf] at hw
    obtain ⟨st1, e⟩ := Elems.eff_calm es (st := st.openArr) (kc := st.keychain) (i := 0) (p0 := .none) (L := st.lastArrayType)
      ⟨h.inv.openArr, h.at'.congr rfl rfl rfl rfl fun _ _ _ => rfl, h.level.congr rfl rfl rfl⟩ hk hne rfl hw.2.1 rfl
    rw [VT.eff, e]
    exact ⟨_, rfl⟩
  | .itab kvs ws, p, st, h, hk, hne, hw => by
    rw [VT.wf] at hw
    obtain ⟨st1, e⟩ := Pairs.eff_calm kvs h hk hne hw.2
    rw [VT.eff, e]
    exact ⟨_, rfl⟩
theorem Elems.eff_calm : ∀ (t : Elems) {p : List Key} {st : PState} {kc : List Key} {i : Nat} {p0 : ArrayType} {L : List ArrayType}, Calm p st → PathWf kc → kc ≠ [] →
    st.keychain = kc ++ [.idx i] → t.wf → st.lastArrayType = L ++ [p0] → ∃ st', t.eff st = .ok st'
  | .nil, p, st, kc, i, p0, L, h, hk, hne, hkc, hw, hl => ⟨st, by rw [Elems.eff]⟩
  | .cons v sep cn r, p, st, kc, i, p0, L, h, hk, hne, hkc, hw, hl => by
    rw [Elems.wf] at hw
    have hpw : PathWf st.keychain := by rw [hkc]; exact hk.append hne (by simp)
    have hne1 : st.keychain ≠ [] := by rw [hkc]; simp
    obtain ⟨st1, e1⟩ := VT.eff_calm v h hpw hne1 hw.1
    have all1 := v.eff_all h.inv
    rw [e1] at all1
    have f1 := VT.eff_frame e1
    obtain ⟨a1, _, a3, a4, _⟩ := VT.eff_clean v h.at' hpw hne1 hw.1 e1
    have h1 : Calm p st1 := ⟨all1.1, a1, h.level.congr f1.lastTable f1.tables f1.index⟩
    obtain ⟨st2, e2⟩ := arrayValueAct_calm h1 all1.2 hk hne (a3.trans hkc) (a4.trans hl)
    have all2 := arrayValueAct_all all1.1 all1.2
    rw [e2] at all2
    have f2 := arrayValueAct_frame e2
    obtain ⟨fp, hr⟩ := VT.rep_after e1
    obtain ⟨b1, _, b3, b4, _⟩ := arrayValueAct_stays a1 hk hne (a3.trans hkc) hr (a4.trans hl) e2
    obtain ⟨st3, e3⟩ := Elems.eff_calm r ⟨all2, b1, h1.level.congr f2.lastTable f2.tables f2.index⟩ hk hne b3 hw.2.2.2 b4
    exact ⟨st3, by rw [Elems.eff, e1, Out.bind, e2, Out.bind, e3]⟩
theorem Pairs.eff_calm : ∀ (t : Pairs) {p : List Key} {st : PState}, Calm p st → PathWf st.keychain → st.keychain ≠ [] → t.wf → ∃ st', t.eff st = .ok st'
  | .nil, p, st, h, hk, hne, hw => ⟨st, by rw [Pairs.eff]⟩
  | .cons k ws v sep cn r, p, st, h, hk, hne, hw => by
    rw [Pairs.wf] at hw
    have hp : Calm p (st.pushK k) := ⟨h.inv.pushK k, h.at'.congr rfl rfl rfl rfl fun _ _ _ => rfl, h.level.congr rfl rfl rfl⟩
    have hkc : (st.pushK k).keychain = st.keychain ++ [.str k] := rfl
    have hpw : PathWf (st.pushK k).keychain := by rw [hkc]; exact hk.push hw.1
    have hne1 : (st.pushK k).keychain ≠ [] := by rw [hkc]; simp
    obtain ⟨st1, e1⟩ := VT.eff_calm v hp hpw hne1 hw.2.2.1
    have all1 := v.eff_all hp.inv
    rw [e1] at all1
    have f1 := VT.eff_frame e1
    obtain ⟨a1, _, a3, a4, _⟩ := VT.eff_clean v hp.at' hpw hne1 hw.2.2.1 e1
    have h1 : Calm p st1 := ⟨all1.1, a1, hp.level.congr f1.lastTable f1.tables f1.index⟩
    obtain ⟨st2, e2⟩ := keyvalAct_calm k h1 all1.2 (by rw [a3]; exact hpw) (by rw [a3]; exact hne1)
    have all2 := keyvalAct_all (k := k) all1.1 all1.2
    rw [e2] at all2
    obtain ⟨_, f2⟩ := keyvalAct_frame e2
    obtain ⟨b1, _, b3, _⟩ := keyvalAct_stays a1 hk hw.1 (a3.trans hkc) e2
    obtain ⟨st3, e3⟩ := Pairs.eff_calm r ⟨all2, b1, h1.level.congr f2.lastTable f2.tables f2.index⟩ (by rw [b3]; exact hk) (by rw [b3]; exact hne) hw.2.2.2.2.2
    exact ⟨st3, by rw [Pairs.eff, e1, Out.bind, e2, Out.bind, e3]⟩
end

/-- A key/value pair. -/
theorem kv_calm {p : List Key} {st : PState} (h : Calm p st) (hkc : st.keychain = []) {w1 : Str} {k : Str} {s : WSSep} {v : VT} {w2 : Str} {c : Option Str} (hk : KeyWf k) (hv : v.wf) :
    ∃ st', (ET.kv w1 k s v w2 c).eff st = .ok st' := by
  have hp : Calm p (st.pushK k) := ⟨h.inv.pushK k, h.at'.congr rfl rfl rfl rfl fun _ _ _ => rfl, h.level.congr rfl rfl rfl⟩
  have hkc1 : (st.pushK k).keychain = [.str k] := by simp [PState.pushK, hkc]
  have hpw : PathWf (st.pushK k).keychain := by rw [hkc1]; exact PathWf.push (kc := []) trivial hk
  have hne1 : (st.pushK k).keychain ≠ [] := by rw [hkc1]; simp
  obtain ⟨st1, e1⟩ := VT.eff_calm v hp hpw hne1 hv
  have all1 := v.eff_all hp.inv
  rw [e1] at all1
  have f1 := VT.eff_frame e1
  obtain ⟨a1, _, a3, a4, _⟩ := VT.eff_clean v hp.at' hpw hne1 hv e1
  obtain ⟨st2, e2⟩ := keyvalAct_calm k ⟨all1.1, a1, hp.level.congr f1.lastTable f1.tables f1.index⟩ all1.2 (by rw [a3]; exact hpw) (by rw [a3]; exact hne1)
  exact ⟨st2, by rw [ET.eff, e1, Out.bind, e2]⟩

end Tomllib
