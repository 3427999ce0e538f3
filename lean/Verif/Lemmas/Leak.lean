import Verif.Lemmas.Turned
import Verif.Spec.Leak
/-!
# What the lines below a refused header leave behind
-/

namespace Tomllib

mutual
/-- `VT.leaks`, with the addresses of the cells if the first cell of the value is at `n`. -/
def VT.aleaks (K : Str) (n : Nat) : VT → List (Str × Addr × VT)
  | .leaf _ => []
  | .arr es _ _ => es.aleaks K 0 n
  | .itab kvs _ => kvs.aleaks K n
def Elems.aleaks (K : Str) (i n : Nat) : Elems → List (Str × Addr × VT)
  | .nil => []
  | .cons v _ _ r => v.aleaks (indexed K i) n ++ (indexed K i, v.addr n, v) :: r.aleaks K (i + 1) (n + v.size)
def Pairs.aleaks (K : Str) (n : Nat) : Pairs → List (Str × Addr × VT)
  | .nil => []
  | .cons k _ v _ _ r => v.aleaks (dotted K k) n ++ r.aleaks K (n + v.size)
end

mutual
theorem VT.aleaks_leaks : ∀ (t : VT) (K : Str) (n : Nat), (t.aleaks K n).map (fun e => (e.1, e.2.2)) = t.leaks K
  | .leaf _, K, n => by simp [VT.aleaks, VT.leaks]
  | .arr es _ _, K, n => by rw [VT.aleaks, VT.leaks]; exact es.aleaks_leaks K 0 n
  | .itab kvs _, K, n => by rw [VT.aleaks, VT.leaks]; exact kvs.aleaks_leaks K n
theorem Elems.aleaks_leaks : ∀ (t : Elems) (K : Str) (i n : Nat), (t.aleaks K i n).map (fun e => (e.1, e.2.2)) = t.leaks K i
  | .nil, K, i, n => by simp [Elems.aleaks, Elems.leaks]
  | .cons v _ _ r, K, i, n => by
    rw [Elems.aleaks, Elems.leaks, List.map_append, List.map_cons, v.aleaks_leaks, r.aleaks_leaks]
theorem Pairs.aleaks_leaks : ∀ (t : Pairs) (K : Str) (n : Nat), (t.aleaks K n).map (fun e => (e.1, e.2.2)) = t.leaks K
  | .nil, K, n => by simp [Pairs.aleaks, Pairs.leaks]
  | .cons k _ v _ _ r, K, n => by
    rw [Pairs.aleaks, Pairs.leaks, List.map_append, v.aleaks_leaks, r.aleaks_leaks]
end

mutual
theorem VT.aleaks_sub : ∀ (t : VT) (K : Str) (n : Nat) {e : Str × Addr × VT}, e ∈ t.aleaks K n → e ∈ t.aents K n
  | .leaf _, K, n, e, h => by simp [VT.aleaks] at h
  | .arr es _ _, K, n, e, h => by rw [VT.aleaks] at h; rw [VT.aents]; exact es.aleaks_sub K 0 n h
  | .itab kvs _, K, n, e, h => by rw [VT.aleaks] at h; rw [VT.aents]; exact kvs.aleaks_sub K n h
theorem Elems.aleaks_sub : ∀ (t : Elems) (K : Str) (i n : Nat) {e : Str × Addr × VT}, e ∈ t.aleaks K i n → e ∈ t.aents K i n
  | .nil, K, i, n, e, h => by simp [Elems.aleaks] at h
  | .cons v _ _ r, K, i, n, e, h => by
    rw [Elems.aleaks, List.mem_append, List.mem_cons] at h
    rw [Elems.aents, List.mem_append, List.mem_cons]
    exact h.imp (v.aleaks_sub _ _) (Or.imp id (r.aleaks_sub _ _ _))
theorem Pairs.aleaks_sub : ∀ (t : Pairs) (K : Str) (n : Nat) {e : Str × Addr × VT}, e ∈ t.aleaks K n → e ∈ t.aents K n
  | .nil, K, n, e, h => by simp [Pairs.aleaks] at h
  | .cons k _ v _ _ r, K, n, e, h => by
    rw [Pairs.aleaks, List.mem_append] at h
    rw [Pairs.aents, List.mem_append, List.mem_cons]
    exact h.imp (v.aleaks_sub _ _) fun h => .inr (r.aleaks_sub _ _ h)
end

theorem Muted.ctx {st : PState} (h : Muted Option.none [] st) : Ctx [] (st.virt Option.none) :=
  ⟨h.calm.level.2.symm, rfl, by simp [NamesWf], by rw [if_pos rfl]; exact ⟨rfl, h.calm.level.1 rfl⟩⟩

theorem Muted.kv_map {lt : Option TableType} {p : List Key} {st st' : PState} (h : Muted lt p st) {k : Str} {a : Addr} (hs : Tomllib.keyvalAct k a st = .ok st') :
    st'.map = st.map ∧ st'.keychain = st.keychain.dropLast := by
  refine ⟨?_, (keyvalAct_frame hs).1⟩
  unfold Tomllib.keyvalAct at hs
  rw [if_pos h.err, List.getLast?_eq_some_getLast h.ne] at hs
  cases hl : st.errors.getLast h.ne with
  | invalidTable key l c m =>
    rw [hl] at hs
    simp only [Out.bind_eq, Out.bind_ok] at hs
    obtain ⟨s1, ⟨v, _, h1⟩, h2⟩ := hs
    simp at h1 h2
    subst h1; subst h2; rfl
  | _ =>
    rw [hl] at hs
    simp [Out.bind_eq, Out.bind] at hs
    subst hs; rfl

mutual
theorem VT.eff_leak : ∀ (t : VT) {st st' : PState}, Muted Option.none [] st → PathWf st.keychain → st.keychain ≠ [] → t.wf → t.eff st = .ok st' →
    ∀ x, valOf st'.map x = (valOf st.map x).or ((lookup x (t.aleaks (keyOf [] st.keychain) st.heap.length)).map (·.1))
  | .leaf s, st, st', hc, hk, hne, hw, h => by
    rw [VT.eff, Out.bind_ok] at h
    obtain ⟨st1, h1, h⟩ := h
    simp at h; subst h
    have hm : (st1.cell s.cell).map = st.map := (show _ = st1.map from rfl).trans (Scalar.eff_map h1)
    rw [hm]
    exact fun x => by simp [VT.aleaks, lookup]
  | .arr es c1 c2, st, st', hc, hk, hne, hw, h => by
    rw [VT.eff, Out.bind_ok] at h
    obtain ⟨st1, h1, h⟩ := h
    simp at h; subst h
    rw [VT.wf] at hw
    have := Elems.eff_leak es (st := st.openArr) (kc := st.keychain) (i := 0) (p0 := .none) (L := st.lastArrayType)
      (hc.next hc.inv.openArr rfl rfl rfl rfl (fun _ _ _ => rfl) hc.ne) hk hne rfl hw.2.1 rfl h1
    exact this
  | .itab kvs ws, st, st', hc, hk, hne, hw, h => by
    rw [VT.eff, Out.bind_ok] at h
    obtain ⟨st1, h1, h⟩ := h
    simp at h; subst h
    rw [VT.wf] at hw
    have := Pairs.eff_leak kvs hc hk hne hw.2 h1
    exact this
theorem Elems.eff_leak : ∀ (t : Elems) {st st' : PState} {kc : List Key} {i : Nat} {p0 : ArrayType} {L : List ArrayType}, Muted Option.none [] st → PathWf kc → kc ≠ [] →
    st.keychain = kc ++ [.idx i] → t.wf → st.lastArrayType = L ++ [p0] → t.eff st = .ok st' →
    ∀ x, valOf st'.map x = (valOf st.map x).or ((lookup x (t.aleaks (keyOf [] kc) i st.heap.length)).map (·.1))
  | .nil, st, st', kc, i, p0, L, hc, hk, hne, hkc, hw, hl, h => by
    simp [Elems.eff] at h; subst h
    exact fun x => by simp [Elems.aleaks, lookup]
  | .cons v sep cn r, st, st', kc, i, p0, L, h, hk, hne, hkc, hw, hl, hs => by
    rw [Elems.wf] at hw
    have hpw : PathWf st.keychain := by rw [hkc]; exact hk.append hne (by simp)
    have hne1 : st.keychain ≠ [] := by rw [hkc]; simp
    obtain ⟨st1, e1, h1, l1⟩ := VT.eff_muted v h hpw hne1 hw.1
    have a1 := VT.eff_leak v h hpw hne1 hw.1 e1
    have all1 := v.eff_all h.inv
    rw [e1] at all1
    have k1 : st1.keychain = kc ++ [.idx i] := (VT.eff_frame e1).keychain.trans hkc
    have t1 : Top st1 := all1.2
    have t1' : Top (st1.virt Option.none) := ⟨t1.1, t1.2, t1.3⟩
    obtain ⟨s2, e2⟩ := arrayValueAct_calm h1.calm t1' hk hne k1 (l1.trans hl)
    obtain ⟨fp, hr⟩ := VT.rep_after e1
    obtain ⟨b1, b2, b3, b4, _⟩ := arrayValueAct_stays h1.calm.at' hk hne k1 (v := v) (fp := fp) hr (l1.trans hl) e2
    obtain ⟨_, v1, _⟩ := arrayValueAct_val h1.ctx hk hne k1 e2
    have e3 := h1.arrayValueAct t1 hk hne k1 e2
    have all2 := arrayValueAct_all all1.1 t1
    rw [show st1.heap.length - 1 = (st1.virt Option.none).heap.length - 1 from rfl, e3] at all2
    have f2 := arrayValueAct_frame e2
    have h2 : Muted Option.none [] { s2 with arrayError := st1.arrayError, lastTable := st1.lastTable } :=
      h1.next all2 rfl f2.tables f2.index rfl b2.above fun he => h1.ne ((arrayValueAct_adds e2).clean he)
    rw [Elems.eff, e1, Out.bind, show st1.heap.length - 1 = (st1.virt Option.none).heap.length - 1 from rfl, e3, Out.bind] at hs
    have d1 := Elems.eff_leak r h2 hk hne b3 hw.2.2.2 b4 hs
    have hlen : s2.heap.length = st.heap.length + v.size := by rw [arrayValueAct_heap e2, show (st1.virt Option.none).heap = st1.heap from rfl, VT.eff_length e1]
    have hK : keyOf [] (names [] ++ kc ++ [.idx i]) = indexed (keyOf [] kc) i := by
      rw [show names [] ++ kc = kc from rfl, keyOf_append]; rfl
    have hK' : keyOf [] (kc ++ [.idx i]) = indexed (keyOf [] kc) i := hK
    intro x
    have d1 := d1 x
    have v1 := v1 x
    rw [show (st1.virt Option.none).map = st1.map from rfl, show (st1.virt Option.none).heap = st1.heap from rfl, hK, VT.eff_addr e1] at v1
    have a1 := a1 x
    rw [hkc, hK'] at a1
    dsimp only at d1
    rw [d1, v1, a1, hlen, Elems.aleaks, lookup_append, lookup, Option.or_assoc', Option.or_assoc']
    congr 1
    cases lookup x (v.aleaks (indexed (keyOf [] kc) i) st.heap.length) with
    | some y => rfl
    | none =>
      simp only [Option.map_none, Option.none_or]
      split <;> simp
theorem Pairs.eff_leak : ∀ (t : Pairs) {st st' : PState}, Muted Option.none [] st → PathWf st.keychain → st.keychain ≠ [] → t.wf → t.eff st = .ok st' →
    ∀ x, valOf st'.map x = (valOf st.map x).or ((lookup x (t.aleaks (keyOf [] st.keychain) st.heap.length)).map (·.1))
  | .nil, st, st', hc, hk, hne, hw, h => by
    simp [Pairs.eff] at h; subst h
    exact fun x => by simp [Pairs.aleaks, lookup]
  | .cons k ws v sep cn r, st, st', h, hk, hne, hw, hs => by
    rw [Pairs.wf] at hw
    have hp : Muted Option.none [] (st.pushK k) := h.next (h.inv.pushK k) rfl rfl rfl rfl (fun _ _ _ => rfl) h.ne
    have hkc : (st.pushK k).keychain = st.keychain ++ [.str k] := rfl
    have hpw : PathWf (st.pushK k).keychain := by rw [hkc]; exact hk.push hw.1
    have hne1 : (st.pushK k).keychain ≠ [] := by rw [hkc]; simp
    obtain ⟨st1, e1, h1, l1⟩ := VT.eff_muted v hp hpw hne1 hw.2.2.1
    have a1 := VT.eff_leak v hp hpw hne1 hw.2.2.1 e1
    have all1 := v.eff_all hp.inv
    rw [e1] at all1
    obtain ⟨st2, e2, h2⟩ := h1.keyvalAct all1.2 k
    have k2 : st2.keychain = st.keychain := by
      rw [(keyvalAct_frame e2).1, (VT.eff_frame e1).keychain, hkc]; simp
    rw [Pairs.eff, e1, Out.bind, e2, Out.bind] at hs
    have d1 := Pairs.eff_leak r h2 (by rw [k2]; exact hk) (by rw [k2]; exact hne) hw.2.2.2.2.2 hs
    have hlen : st2.heap.length = st.heap.length + v.size := by rw [keyvalAct_heap e2, VT.eff_length e1]; rfl
    have hK : keyOf [] (st.keychain ++ [.str k]) = dotted (keyOf [] st.keychain) k := by
      rw [keyOf_append]; rfl
    intro x
    have a1 := a1 x
    rw [hkc, hK, show (st.pushK k).map = st.map from rfl, show (st.pushK k).heap = st.heap from rfl] at a1
    rw [d1 x, (h1.kv_map e2).1, a1, hlen, k2, Pairs.aleaks, lookup_append, Option.or_assoc']
    congr 1
    cases lookup x (v.aleaks (dotted (keyOf [] st.keychain) k) st.heap.length) <;> rfl
end

/-! ## The lines below -/

/-- Elements with cells that hold them. -/
structure Left (st st' : PState) (l : List (Str × VT)) : Prop where
  heap : ∃ x, st'.heap = st.heap ++ x
  val : ∃ al : List (Str × Addr × VT), al.map (fun e => (e.1, e.2.2)) = l ∧ EntsRep st'.heap al ∧ ∀ x, valOf st'.map x = (valOf st.map x).or ((lookup x al).map (·.1))

theorem EntsRep.more {h : Heap} {l : List (Str × Addr × VT)} (hr : EntsRep h l) (x : Heap) : EntsRep (h ++ x) l := fun e he => by
  obtain ⟨fp, hf⟩ := hr e he
  exact ⟨fp, hf.append x⟩

theorem Left.trans {a b c : PState} {l l' : List (Str × VT)} (h : Left a b l) (h' : Left b c l') : Left a c (l ++ l') := by
  obtain ⟨⟨x, hx⟩, al, r1, r2, r3⟩ := h
  obtain ⟨⟨y, hy⟩, al', s1, s2, s3⟩ := h'
  refine ⟨⟨x ++ y, by rw [hy, hx, List.append_assoc]⟩, al ++ al', by rw [List.map_append, r1, s1], EntsRep.append (by rw [hy]; exact r2.more y) s2, fun k => ?_⟩
  rw [s3, r3, lookup_append, Option.or_assoc']
  congr 1
  cases lookup k al <;> rfl

theorem Muted.kv {st : PState} (h : Muted Option.none [] st) (hkc : st.keychain = []) {w1 : Str} {k : Str} {s : WSSep} {v : VT} {w2 : Str} {c : Option Str} (hk : KeyWf k)
    (hv : v.wf) : ∃ st', (ET.kv w1 k s v w2 c).eff st = .ok st' ∧ Muted Option.none [] st' ∧ st'.keychain = [] ∧ Left st st' (v.leaks k) := by
  have hp : Muted Option.none [] (st.pushK k) := h.next (h.inv.pushK k) rfl rfl rfl rfl (fun _ _ _ => rfl) h.ne
  have hkc1 : (st.pushK k).keychain = [.str k] := by simp [PState.pushK, hkc]
  have hpw : PathWf (st.pushK k).keychain := by rw [hkc1]; exact PathWf.push (kc := []) trivial hk
  have hne : (st.pushK k).keychain ≠ [] := by rw [hkc1]; simp
  obtain ⟨st1, e1, h1, _⟩ := VT.eff_muted v hp hpw hne hv
  have a1 := VT.eff_leak v hp hpw hne hv e1
  have all1 := v.eff_all hp.inv
  rw [e1] at all1
  obtain ⟨st2, e2, h2⟩ := h1.keyvalAct all1.2 k
  obtain ⟨m2, k2⟩ := h1.kv_map e2
  have hh : st2.heap = st.heap ++ v.cells st.heap.length := by rw [keyvalAct_heap e2, VT.eff_heap _ _ _ e1]; rfl
  refine ⟨st2, by rw [ET.eff, e1, Out.bind, e2], h2, by rw [k2, (VT.eff_frame e1).keychain, hkc1]; rfl, ⟨_, hh⟩, v.aleaks k st.heap.length, v.aleaks_leaks _ _, ?_, fun x => ?_⟩
  · intro e he
    rw [hh]
    have := v.aents_rep k st.heap [] e (v.aleaks_sub _ _ he)
    simpa using this
  · rw [m2, a1 x, hkc1]; rfl

theorem Muted.run : ∀ (ls : List (Str × ET)) {st : PState}, Muted Option.none [] st → st.keychain = [] → (∀ l ∈ ls, l.2.wf) → (∀ l ∈ ls, l.2.below) →
    ∃ st' ns, linesEff ls st = .ok (st', ns) ∧ Muted Option.none [] st' ∧ st'.keychain = [] ∧ Left st st' (sectionLeaks ls)
  | [], st, h, hk, _, _ => ⟨st, [], rfl, h, hk, ⟨[], by simp⟩, [], rfl, fun e he => by simp at he, fun x => by simp [lookup]⟩
  | (nl, e) :: ls, st, h, hk, hw, hb => by
    have h0 : Muted Option.none [] (st.lines (nlCount nl)) := h.next (h.inv.linesN _) rfl rfl rfl rfl (fun _ _ _ => rfl) h.ne
    have hw' : ∀ l ∈ ls, l.2.wf := fun l hl => hw l (by simp [hl])
    have hb' : ∀ l ∈ ls, l.2.below := fun l hl => hb l (by simp [hl])
    have he := hb (nl, e) (by simp)
    have hwe := hw (nl, e) (by simp)
    have h0k : (st.lines (nlCount nl)).keychain = [] := hk
    have hl : ∀ {s l}, Left (st.lines (nlCount nl)) s l → Left st s l := fun h => ⟨h.1, h.2⟩
    cases e with
    | blank w =>
      obtain ⟨st', ns, a1, a2, a3, a4⟩ := Muted.run ls h0 h0k hw' hb'
      exact ⟨st', _, by rw [linesEff, ET.eff, Out.bind, a1]; rfl, a2, a3, hl a4⟩
    | comment w c =>
      obtain ⟨st', ns, a1, a2, a3, a4⟩ := Muted.run ls h0 h0k hw' hb'
      exact ⟨st', _, by rw [linesEff, ET.eff, Out.bind, a1]; rfl, a2, a3, hl a4⟩
    | table => exact he.elim
    | kv w1 k s v w2 c =>
      obtain ⟨st1, b1, b2, b3, b4⟩ := h0.kv h0k (w1 := w1) (s := s) (w2 := w2) (c := c) (k := k) (v := v) hwe.2.1 hwe.2.2.2.1
      obtain ⟨st', ns, a1, a2, a3, a4⟩ := Muted.run ls b2 b3 hw' hb'
      exact ⟨st', _, by rw [linesEff, b1, Out.bind, a1]; rfl, a2, a3, (hl b4).trans a4⟩

theorem getValue_left {p p' : Parser} (hi : Inv p.st) (hi' : Inv p'.st) {l : List (Str × VT)} (h : Left p.st p'.st l) (k : Str) :
    p'.getValue k = match p.getValue k with
      | .ok none => .ok ((lookup k l).map (·.value))
      | x => x := by
  obtain ⟨⟨x, hx⟩, al, r1, r2, r3⟩ := h
  have r3 := r3 k
  rcases hi.getValue_cases k with ⟨h1, h2⟩ | ⟨a, h1, h2, h3⟩ | ⟨a, t, fp, h1, h2, h3⟩
  · rw [h2]
    rw [h1, Option.none_or] at r3
    dsimp only
    rw [← r1, lookup_map (fun e : Addr × VT => e.2)]
    cases ha : lookup k al with
    | none => rw [ha] at r3; rw [(hi'.getValue_none).mpr r3]; rfl
    | some e =>
      rw [ha] at r3
      obtain ⟨fp, hr⟩ := r2 _ (lookup_mem ha)
      rw [hi'.getValue_rep r3 hr]; rfl
  · rw [h3]
    have h2' : p'.st.heap[a]? = some .table := by
      rw [hx, List.getElem?_append_left (List.getElem?_eq_some_iff.mp h2).1]; exact h2
    rw [h1] at r3
    obtain ⟨c, hg⟩ := valOf_some.mp r3
    simp only [Parser.getValue, hg, Out.bind_eq, toVal_table h2']; rfl
  · rw [h3]
    rw [h1] at r3
    exact hi'.getValue_rep r3 (by rw [hx]; exact h2.append _)

end Tomllib
