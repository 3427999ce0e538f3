import Verif.Lemmas.Bad
import Verif.Lemmas.Quiet
/-!
# Values without arrays below headers that are not in order
-/

namespace Tomllib

/-- The state below a header that is not in order. `D` are the errors since then. -/
structure Lost (es : List ParseError) (K : Str) (n : Nat) (m : SMap Value) (D : List ParseError) (st : PState) : Prop where
  inv : Inv st
  err : st.arrayError = true
  tabs : st.lastArrayTables = []
  idx : st.lastArrayTablesIndex = []
  errs : st.errors = es ++ .invalidTable K n 0 m :: D
  dates : ∀ e ∈ D, e.date? ≠ none

theorem Lost.ctx {es : List ParseError} {K : Str} {n : Nat} {m : SMap Value} {D : List ParseError} {st : PState} (h : Lost es K n m D st) : Ctx [] st.calm :=
  ⟨by rw [show st.calm.lastArrayTables = _ from h.tabs, show st.calm.lastArrayTablesIndex = _ from h.idx]; rfl, rfl, by simp [NamesWf], by
    rw [if_pos rfl]; exact ⟨rfl, h.tabs⟩⟩

theorem Lost.congr {es : List ParseError} {K : Str} {n : Nat} {m : SMap Value} {D : List ParseError} {st st' : PState} (h : Lost es K n m D st) (hi : Inv st')
    (h1 : st'.arrayError = st.arrayError) (h2 : st'.lastArrayTables = st.lastArrayTables) (h3 : st'.lastArrayTablesIndex = st.lastArrayTablesIndex)
    (h4 : st'.errors = st.errors) : Lost es K n m D st' := ⟨hi, h1.trans h.err, h2.trans h.tabs, h3.trans h.idx, h4.trans h.errs, h.dates⟩

/-- What is told is put into the error, until the first date that does not exist. -/
def tell (m : SMap Value) (b : Bool) : List (Option (Str × Value)) → SMap Value × Bool
  | [] => (m, b)
  | some (k, v) :: l => tell (if b then m else m.insert k v) b l
  | none :: l => tell m true l

theorem tell_append : ∀ (l l' : List (Option (Str × Value))) (m : SMap Value) (b : Bool), tell m b (l ++ l') = tell (tell m b l).1 (tell m b l).2 l'
  | [], _, _, _ => rfl
  | some (k, v) :: l, l', m, b => tell_append l l' _ _
  | none :: l, l', m, b => tell_append l l' _ _

theorem tell_stopped : ∀ (l : List (Option (Str × Value))) (m : SMap Value), tell m true l = (m, true)
  | [], _ => rfl
  | some _ :: l, m => tell_stopped l m
  | none :: l, m => tell_stopped l m

theorem tell_get : ∀ (l : List (Option (Str × Value))) (m : SMap Value) (x : Str), (tell m false l).1.get? x = (lastGiven x (pairsUpTo l)).or (m.get? x)
  | [], m, x => by simp [tell, pairsUpTo, lastGiven]
  | none :: l, m, x => by simp [tell, tell_stopped, pairsUpTo, lastGiven]
  | some (k, v) :: l, m, x => by
    rw [tell, tell_get l, pairsUpTo, lastGiven]
    simp only [Bool.false_eq_true, if_false, SMap.get?_insert]
    cases lastGiven x (pairsUpTo l) with
    | some z => rfl
    | none => by_cases e : k = x <;> simp [e]

/-- A pair below a header that is not in order. -/
theorem keyvalAct_lost {es : List ParseError} {K : Str} {n : Nat} {m : SMap Value} {D : List ParseError} {st : PState} (h : Lost es K n m D st) {k : Str} {a : Addr} {v : Value}
    (hv : toVal st.heap a = .ok v) :
    keyvalAct k a st = .ok { st with errors := es ++ .invalidTable K n 0 (if D ≠ [] then m else m.insert k v) :: D, keychain := st.keychain.dropLast } := by
  have e := h.errs
  simp only [keyvalAct, h.err, if_true, Out.bind_eq]
  cases D with
  | nil =>
    rw [e]
    simp [hv, Out.bind]
  | cons x D =>
    have hl : st.errors.getLast? = some ((x :: D).getLast (by simp)) := by
      rw [e, show es ++ ParseError.invalidTable K n 0 m :: x :: D = (es ++ [ParseError.invalidTable K n 0 m]) ++ (x :: D) by simp,
        List.getLast?_append, List.getLast?_eq_some_getLast (l := x :: D) (by simp)]; rfl
    have hd := h.dates _ (List.getLast_mem (l := x :: D) (by simp))
    rw [hl]
    cases hx : (x :: D).getLast (by simp) with
    | invalidTable => rw [hx] at hd; simp [ParseError.date?] at hd
    | mixedArray => rw [hx] at hd; simp [ParseError.date?] at hd
    | duplicateKey => rw [hx] at hd; simp [ParseError.date?] at hd
    | invalidDateTime a b c d => simp [Out.bind, e, h.err]

theorem Scalar.eff_lost {es : List ParseError} {K : Str} {n : Nat} {m : SMap Value} {D : List ParseError} {st : PState} (h : Lost es K n m D st) (s : Scalar)
    (hk : PathWf st.keychain) (hne : st.keychain ≠ []) :
    ∃ st' m' D', (VT.leaf s).eff st = .ok st' ∧ Lost es K n m' D' st' ∧ st'.map = st.map ∧ (m', decide (D' ≠ [])) = tell m (decide (D ≠ [])) (VT.leaf s).told ∧
      D'.filterMap ParseError.date? = D.filterMap ParseError.date? ++ (valEnts ((VT.leaf s).allEntries (keyOf [] st.keychain))).filterMap badDate := by
  by_cases hx : ∀ d, s = .dt d → d.real = true
  · obtain ⟨j, hj⟩ := Scalar.eff_good hx st
    have he : (VT.leaf s).eff st = .ok ((st.lines j).cell s.cell) := by rw [VT.eff, hj]; rfl
    have hi := (VT.leaf s).eff_all h.inv
    rw [he] at hi
    have ht : (VT.leaf s).told = [] := by
      cases s with
      | dt d => rw [VT.told, if_pos (hx d rfl)]
      | _ => rfl
    refine ⟨_, m, D, he, h.congr hi.1 rfl rfl rfl rfl, rfl, by rw [ht]; rfl, ?_⟩
    have : (valEnts ((VT.leaf s).allEntries (keyOf [] st.keychain))).filterMap badDate = [] := by
      cases s with
      | dt d =>
        have := hx d rfl
        rw [DateTime.real_eq] at this
        simp [VT.allEntries, VT.entries, valEnts, badDate, this]
      | _ => rfl
    rw [this, List.append_nil]
  · simp only [Classical.not_forall] at hx
    obtain ⟨d, rfl, hd⟩ := hx
    obtain ⟨v, e⟩ := h.ctx.fullKey (show PathWf st.calm.keychain from hk) hne
    have e' : getFullKey st.map st.heap st.lastArrayTables st.lastArrayTablesIndex st.keychain = _ := e
    have he : (VT.leaf (.dt d)).eff st = .ok (PState.cell { st with errors := st.errors ++ [.invalidDateTime (keyOf [] st.keychain) st.lineCount 0 d.text] } (Scalar.cell (.dt d))) := by
      rw [VT.eff, Scalar.eff, ← DateTime.real_eq, if_neg hd, e']
      rfl
    have hi := (VT.leaf (.dt d)).eff_all h.inv
    rw [he] at hi
    refine ⟨_, m, D ++ [.invalidDateTime (keyOf [] st.keychain) st.lineCount 0 d.text], he, ⟨hi.1, h.err, h.tabs, h.idx, ?_, ?_⟩, rfl, ?_, ?_⟩
    · show st.errors ++ _ = _
      rw [h.errs]; simp
    · intro x hx
      rw [List.mem_append, List.mem_singleton] at hx
      rcases hx with hx | rfl
      · exact h.dates x hx
      · simp [ParseError.date?]
    · rw [VT.told, if_neg hd]; simp [tell]
    · rw [DateTime.real_eq] at hd
      simp [VT.allEntries, VT.entries, valEnts, badDate, hd, ParseError.date?]

theorem Lost.pushK {es : List ParseError} {K : Str} {n : Nat} {m : SMap Value} {D : List ParseError} {st : PState} (h : Lost es K n m D st) (k : Str) : Lost es K n m D (st.pushK k) :=
  h.congr (h.inv.pushK k) rfl rfl rfl rfl

/-- A pair, its value read already. -/
theorem Lost.pair {es : List ParseError} {K : Str} {n : Nat} {m : SMap Value} {D : List ParseError} {st : PState} (h : Lost es K n m D st) (ht : Top st) {k : Str} {v : Value}
    (hv : toVal st.heap (st.heap.length - 1) = .ok v) :
    ∃ st', keyvalAct k (st.heap.length - 1) st = .ok st' ∧ Lost es K n (if D ≠ [] then m else m.insert k v) D st' ∧ st'.map = st.map ∧ st'.heap = st.heap ∧ st'.keychain = st.keychain.dropLast ∧
      st'.lastTable = st.lastTable := by
  have e := keyvalAct_lost h (k := k) hv
  have hi := keyvalAct_all (k := k) h.inv ht
  rw [e] at hi
  exact ⟨_, e, ⟨hi, h.err, h.tabs, h.idx, rfl, h.dates⟩, rfl, rfl, rfl, rfl⟩

mutual
theorem VT.eff_lost : ∀ (t : VT) {es : List ParseError} {K : Str} {n : Nat} {m : SMap Value} {D : List ParseError} {st : PState}, t.arrayless = true → Lost es K n m D st →
    PathWf st.keychain → st.keychain ≠ [] → t.wf →
    ∃ st' m' D', t.eff st = .ok st' ∧ Lost es K n m' D' st' ∧ st'.map = st.map ∧ (m', decide (D' ≠ [])) = tell m (decide (D ≠ [])) t.told ∧
      D'.filterMap ParseError.date? = D.filterMap ParseError.date? ++ (valEnts (t.allEntries (keyOf [] st.keychain))).filterMap badDate
  | .leaf s, es, K, n, m, D, st, _, h, hk, hne, _ => Scalar.eff_lost h s hk hne
  | .arr _ _ _, es, K, n, m, D, st, ha, _, _, _, _ => by simp [VT.arrayless] at ha
  | .itab kvs ws, es, K, n, m, D, st, ha, h, hk, hne, hw => by
    rw [VT.wf] at hw
    rw [VT.arrayless] at ha
    obtain ⟨st', m', D', r1, r2, r3, r4, r5⟩ := Pairs.eff_lost kvs ha h hk hw.2
    have he : (VT.itab kvs ws).eff st = .ok (st'.cell (.itab (kvs.tkvs st.heap.length) ws)) := by rw [VT.eff, r1]; rfl
    have hi := (VT.itab kvs ws).eff_all h.inv
    rw [he] at hi
    refine ⟨_, m', D', he, r2.congr hi.1 rfl rfl rfl rfl, r3, by rw [VT.told]; exact r4, ?_⟩
    rw [r5, VT.allEntries, VT.entries, valEnts_append, List.filterMap_append]
    simp [valEnts, badDate]
theorem Pairs.eff_lost : ∀ (t : Pairs) {es : List ParseError} {K : Str} {n : Nat} {m : SMap Value} {D : List ParseError} {st : PState}, t.arrayless = true → Lost es K n m D st →
    PathWf st.keychain → t.wf →
    ∃ st' m' D', t.eff st = .ok st' ∧ Lost es K n m' D' st' ∧ st'.map = st.map ∧ (m', decide (D' ≠ [])) = tell m (decide (D ≠ [])) t.told ∧
      D'.filterMap ParseError.date? = D.filterMap ParseError.date? ++ (valEnts (t.entries (keyOf [] st.keychain))).filterMap badDate
  | .nil, es, K, n, m, D, st, _, h, _, _ => ⟨st, m, D, by rw [Pairs.eff], h, rfl, by simp [Pairs.told, tell], by simp [Pairs.entries, valEnts]⟩
  | .cons k ws v sep cn r, es, K, n, m, D, st, ha, h, hk, hw => by
    rw [Pairs.wf] at hw
    rw [Pairs.arrayless, Bool.and_eq_true] at ha
    have hpw : PathWf (st.pushK k).keychain := hk.push hw.1
    have hne' : (st.pushK k).keychain ≠ [] := by simp [PState.pushK]
    obtain ⟨st1, m1, D1, a1, a2, a3, a4, a5⟩ := VT.eff_lost v ha.1 (h.pushK k) hpw hne' hw.2.2.1
    have all1 := v.eff_all (h.pushK k).inv
    rw [a1] at all1
    obtain ⟨rd, _⟩ := VT.eff_read (h.pushK k).inv a1
    obtain ⟨st2, b1, b2, b3, b4, b5, _⟩ := a2.pair all1.2 (k := k) rd
    have hk2 : st2.keychain = st.keychain := by rw [b5, (VT.eff_frame a1).keychain]; simp [PState.pushK]
    obtain ⟨st3, m3, D3, c1, c2, c3, c4, c5⟩ := Pairs.eff_lost r ha.2 b2 (by rw [hk2]; exact hk) hw.2.2.2.2.2
    refine ⟨st3, m3, D3, by rw [Pairs.eff, a1, Out.bind, b1, Out.bind, c1], c2, by rw [c3, b3, a3]; rfl, ?_, ?_⟩
    · rw [c4, Pairs.told, tell_append, ← a4, tell]
      simp
    · rw [c5, a5, hk2, List.append_assoc]
      congr 1
      have hkk : keyOf [] (st.pushK k).keychain = dotted (keyOf [] st.keychain) k := by
        show keyOf [] (st.keychain ++ [.str k]) = _
        rw [keyOf_append]; rfl
      rw [hkk, Pairs.entries, VT.allEntries, ← List.filterMap_append, ← valEnts_append]
      simp
end

/-! ## Lines -/

/-- The state below a bad header, and what was read before. -/
structure DocLost (E : AEnts) (es : List ParseError) (K : Str) (n : Nat) (m : SMap Value) (D : List ParseError) (st : PState) : Prop where
  lost : Lost es K n m D st
  doc : DocInv [] E st.calm

theorem DocBad.lost {E : AEnts} {es : List ParseError} {K : Str} {n : Nat} {m : SMap Value} {st : PState} (h : DocBad E es K n m st) : DocLost E es K n m [] st := by
  have hc := h.doc.ctx
  have ht : st.lastArrayTables = [] := by
    have := hc.2.2.2
    rw [if_pos rfl] at this
    exact this.2
  have hi : st.lastArrayTablesIndex = [] := by
    have := hc.1
    rw [show st.calm.lastArrayTables = _ from ht] at this
    exact List.length_eq_zero_iff.mp this.symm
  exact ⟨⟨h.inv, h.err, ht, hi, h.errs, by simp⟩, h.doc⟩

theorem DocLost.linesN {E : AEnts} {es : List ParseError} {K : Str} {n : Nat} {m : SMap Value} {D : List ParseError} {st : PState} (h : DocLost E es K n m D st) (j : Nat) :
    DocLost E es K n m D (st.lines j) := ⟨h.lost.congr (h.lost.inv.linesN j) rfl rfl rfl rfl, h.doc.linesN j⟩

theorem DocLost.iss {E : AEnts} {es : List ParseError} {K : Str} {n : Nat} {m : SMap Value} {D : List ParseError} {st : PState} (h : DocLost E es K n m D st) (seen : List Str) :
    BadIss es st.errors seen [] (D.filterMap ParseError.date?) [(K, m)] := by
  have hd := h.lost.dates
  have key : ∀ {β : Type} (f : ParseError → Option β), (∀ k n c s, f (.invalidDateTime k n c s) = none) → D.filterMap f = [] := by
    intro β f hf
    refine List.filterMap_eq_nil_iff.mpr fun e he => ?_
    have := hd e he
    cases e with
    | invalidDateTime k n c s => exact hf k n c s
    | _ => simp [ParseError.date?] at this
  refine ⟨.invalidTable K n 0 m :: D, h.lost.errs, ?_, ?_, ?_, ?_⟩
  · rw [List.filterMap_cons]; simp only [ParseError.dup?]; rw [key ParseError.dup? (by intros; rfl)]; rfl
  · rw [List.filterMap_cons]; simp only [ParseError.date?]
  · rw [List.filterMap_cons]; simp only [ParseError.mixed?]; rw [key ParseError.mixed? (by intros; rfl)]; simp
  · rw [List.filterMap_cons]; simp only [ParseError.bad?]; rw [key ParseError.bad? (by intros; rfl)]

/-- A line `k = v` below a bad header. -/
theorem DocLost.kv {E : AEnts} {es : List ParseError} {K : Str} {n : Nat} {m : SMap Value} {D : List ParseError} {st : PState} (h : DocLost E es K n m D st)
    {w1 k : Str} {s : WSSep} {v : VT} {w2 : Str} {c : Option Str} (ha : v.arrayless = true) (hk : KeyWf k) (hv : v.wf) :
    ∃ st' m' D', ET.eff (.kv w1 k s v w2 c) st = .ok st' ∧ DocLost E es K n m' D' st' ∧
      (m', decide (D' ≠ [])) = tell m (decide (D ≠ [])) (v.told ++ [some (k, v.value)]) ∧
      D'.filterMap ParseError.date? = D.filterMap ParseError.date? ++ (pairEntries [] k v).filterMap badDate := by
  have hkc : st.keychain = [] := h.doc.kc
  have hpk : (st.pushK k).keychain = [.str k] := by simp [PState.pushK, hkc]
  have hpw : PathWf (st.pushK k).keychain := by rw [hpk]; exact ⟨hk, by simp⟩
  obtain ⟨st1, m1, D1, a1, a2, a3, a4, a5⟩ := v.eff_lost ha (h.lost.pushK k) hpw (by rw [hpk]; simp) hv
  have all1 := v.eff_all (h.lost.pushK k).inv
  rw [a1] at all1
  obtain ⟨rd, _⟩ := VT.eff_read (h.lost.pushK k).inv a1
  obtain ⟨st2, b1, b2, b3, b4, b5, b6⟩ := a2.pair all1.2 (k := k) rd
  have hk2 : st2.keychain = [] := by rw [b5, (VT.eff_frame a1).keychain, hpk]; rfl
  refine ⟨st2, _, D1, by rw [ET.eff, a1, Out.bind, b1], ⟨b2, ?_⟩, ?_, ?_⟩
  · have hd := h.doc
    have hh : st2.heap = st.heap ++ v.cells st.heap.length := by rw [b4, VT.eff_heap _ _ _ a1]; rfl
    have hm : st2.map = st.map := by rw [b3, a3]; rfl
    have hi2 := b2.inv
    have ht : Tab st.map (st.heap ++ v.cells st.heap.length) := hd.tab.append hd.inv.map _
    refine ⟨b2.ctx, ⟨hi2.rank, hi2.map, hi2.stack, by simp [PState.calm], hi2.cols, hi2.lines, hi2.line1⟩, hk2, ?_, ?_, ?_, ?_, ?_, ?_⟩
    · show Tab st2.map st2.heap
      rw [hm, hh]; exact ht
    · show st2.map.get? _ ≠ none
      rw [hm]; exact hd.root
    · show Free st2.map st2.heap []
      rw [hm, hh]
      exact (Free.append hd.inv.map).mpr hd.free
    · show st2.map.get? _ ≠ none
      rw [hm]; exact hd.here
    · show ∀ x, valOf st2.map x = _
      rw [hm]; exact hd.vals
    · intro e he
      show e.2.2.Rep st2.heap e.2.1
      rw [hh]; exact (hd.rep e he).append _
  · rw [tell_append, ← a4, tell, tell]
    simp
  · rw [a5, hpk]; rfl

theorem sectionTold_kv (nl w1 k : Str) (s : WSSep) (v : VT) (w2 : Str) (c : Option Str) (ls : List (Str × ET)) :
    sectionTold ((nl, .kv w1 k s v w2 c) :: ls) = (v.told ++ [some (k, v.value)]) ++ sectionTold ls := by simp [sectionTold]

/-- The state after some lines. -/
def After (E : AEnts) (st : PState) : Prop := (∃ T, DocInv T E st) ∨ ∃ es K n m D, DocLost E es K n m D st

theorem After.holds {E : AEnts} {st : PState} (h : After E st) : Holds E st := by
  rcases h with ⟨T, h⟩ | ⟨_, _, _, _, _, h⟩
  · exact ⟨T, st, h, rfl, rfl⟩
  · exact ⟨[], st.calm, h.doc, rfl, rfl⟩

theorem Census.run {T : Option Str} {G : List (Str × Entry)} {ls : List (Str × ET)} {F : List (Str × Entry)} {D : List (Str × Str)} {B : List (Str × List (Str × Value))}
    (hs : Census T G ls F D B) : (∀ l ∈ ls, l.2.wf) → ∀ E : AEnts, E.erase = G → ∀ st : PState,
    (∀ N, T = some (nkey N) → DocInv N E st → ∃ st' ns F' L, linesEff ls st = .ok (st', ns) ∧ AEnts.erase F' = F ∧ After (E ++ F') st' ∧
      BadIss st.errors st'.errors (E.erase.map (·.1)) F D L ∧ Reports L B) ∧
    (∀ es K n m A, T = none → DocLost E es K n m A st → ∃ st' ns F' m' L, linesEff ls st = .ok (st', ns) ∧ AEnts.erase F' = F ∧ After (E ++ F') st' ∧
      BadIss es st'.errors (E.erase.map (·.1)) F (A.filterMap ParseError.date? ++ D) ((K, m') :: L) ∧ m' = (tell m (decide (A ≠ [])) (sectionTold ls)).1 ∧ Reports L B) := by
  induction hs with
  | done =>
    rename_i T G
    intro _ E hE st
    constructor
    · intro N _ h
      exact ⟨st, [], [], [], rfl, rfl, by simpa using .inl ⟨N, h⟩, .refl _ _, trivial⟩
    · intro es K n m A _ h
      exact ⟨st, [], [], m, [], rfl, rfl, by simpa using .inr ⟨es, K, n, m, A, h⟩, by simpa using h.iss _, rfl, trivial⟩
  | blank hs ih =>
    rename_i T G nl w ls F D B
    intro hw E hE st
    obtain ⟨a, b⟩ := ih (fun l hl => hw l (by simp [hl])) E hE (st.lines (nlCount nl))
    constructor
    · intro N hT h
      obtain ⟨st', ns, F', L, r1, r⟩ := a N hT (h.linesN _)
      exact ⟨st', _, F', L, by rw [linesEff, ET.eff, Out.bind, r1, Out.bind], r⟩
    · intro es K n m A hT h
      obtain ⟨st', ns, F', m', L, r1, r⟩ := b es K n m A hT (h.linesN _)
      exact ⟨st', _, F', m', L, by rw [linesEff, ET.eff, Out.bind, r1, Out.bind], r⟩
  | comment hs ih =>
    rename_i T G nl w c ls F D B
    intro hw E hE st
    obtain ⟨a, b⟩ := ih (fun l hl => hw l (by simp [hl])) E hE (st.lines (nlCount nl))
    constructor
    · intro N hT h
      obtain ⟨st', ns, F', L, r1, r⟩ := a N hT (h.linesN _)
      exact ⟨st', _, F', L, by rw [linesEff, ET.eff, Out.bind, r1, Out.bind], r⟩
    · intro es K n m A hT h
      obtain ⟨st', ns, F', m', L, r1, r⟩ := b es K n m A hT (h.linesN _)
      exact ⟨st', _, F', m', L, by rw [linesEff, ET.eff, Out.bind, r1, Out.bind], r⟩
  | kv hs ih =>
    rename_i T G nl w1 k s v w2 c ls F D B
    intro hw E hE st
    refine ⟨?_, by intro es K n m A hT; simp at hT⟩
    intro N hT h
    simp at hT; subst hT
    have he := hw (nl, .kv w1 k s v w2 c) (by simp)
    obtain ⟨st1, g1, g2, g3⟩ := (h.linesN (nlCount nl)).kvLine (w1 := w1) (s := s) (w2 := w2) (c := c) he.2.1 he.2.2.2.1
    have hK : (kvEnts N (st.lines (nlCount nl)).heap.length k v).erase = pairEntries (nkey N) k v := by
      rw [kvEnts_erase, nkey_push]; rfl
    obtain ⟨a, _⟩ := ih (fun l hl => hw l (by simp [hl])) (E ++ kvEnts N (st.lines (nlCount nl)).heap.length k v) (by rw [AEnts.erase_append, hE, hK]) st1
    obtain ⟨st', ns, F', L, r1, r2, r3, r4, r5⟩ := a N rfl g2
    refine ⟨st', _, kvEnts N (st.lines (nlCount nl)).heap.length k v ++ F', L, by rw [linesEff, g1, Out.bind, r1, Out.bind],
      by rw [AEnts.erase_append, hK, r2], by rw [← List.append_assoc]; exact r3, ?_, r5⟩
    rw [← hK]
    have g3' := g3.bad
    rw [← kvEnts_erase N (st.lines (nlCount nl)).heap.length] at g3'
    exact g3'.trans (by simpa [AEnts.erase_append] using r4)
  | lost ha hs ih =>
    rename_i G nl w1 k s v w2 c ls F D B
    intro hw E hE st
    refine ⟨by intro N hT; simp at hT, ?_⟩
    intro es K n m A _ h
    have he := hw (nl, .kv w1 k s v w2 c) (by simp)
    obtain ⟨st1, m1, A1, g1, g2, g3, g4⟩ := (h.linesN (nlCount nl)).kv (w1 := w1) (k := k) (s := s) (w2 := w2) (c := c) ha he.2.1 he.2.2.2.1
    obtain ⟨_, b⟩ := ih (fun l hl => hw l (by simp [hl])) E hE st1
    obtain ⟨st', ns, F', m', L, r1, r2, r3, r4, r5, r6⟩ := b es K n _ _ rfl g2
    refine ⟨st', _, F', m', L, by rw [linesEff, g1, Out.bind, r1, Out.bind], r2, r3, ?_, ?_, r6⟩
    · rw [g4, List.append_assoc] at r4; exact r4
    · rw [r5, sectionTold_kv, tell_append, ← g3]
  | table hok hs ih =>
    rename_i T G nl w1 t w2 c ls F D B
    intro hw E hE st
    have he := hw (nl, .table w1 (.std t) w2 c) (by simp)
    have key : ∀ {st1 : PState} {a : Addr}, ET.eff (.table w1 (.std t) w2 c) (st.lines (nlCount nl)) = .ok st1 → DocInv t.names (E ++ [(nkey t.names, a, .header)]) st1 →
        ∃ st' ns F' L, linesEff ((nl, .table w1 (.std t) w2 c) :: ls) st = .ok (st', ns) ∧ AEnts.erase F' = (t.key, .header) :: F ∧ After (E ++ F') st' ∧
          BadIss st1.errors st'.errors (E.erase.map (·.1)) ((t.key, .header) :: F) D L ∧ Reports L B := by
      intro st1 a g1 g2
      obtain ⟨c1, _⟩ := ih (fun l hl => hw l (by simp [hl])) (E ++ [(nkey t.names, a, .header)]) (by rw [AEnts.erase_append, hE, t.key_eq]; rfl) st1
      obtain ⟨st', ns, F', L, r1, r2, r3, r4, r5⟩ := c1 _ (by rw [t.key_eq]) g2
      refine ⟨st', _, (nkey t.names, a, .header) :: F', L, by rw [linesEff, g1, Out.bind, r1, Out.bind], ?_, by simpa using r3, ?_, r5⟩
      · show (nkey t.names, Entry.header) :: AEnts.erase F' = _
        rw [r2, t.key_eq]
      · have h0 : BadIss st1.errors st1.errors (E.erase.map (·.1)) [(t.key, .header)] [] [] :=
          ⟨[], by simp, by simp [repeats], by simp, by simp, by simp⟩
        have := h0.trans (G := F) (D' := D) (M := L) (c := st'.errors) (by rw [t.key_eq]; simpa [AEnts.erase_append, AEnts.erase] using r4)
        simpa using this
    constructor
    · intro N _ h
      obtain ⟨st1, g1, g2, _, g4⟩ := ((h.linesN (nlCount nl)).header he.2.1).1 (by rw [hE]; exact hok)
      obtain ⟨st', ns, F', L, r1, r2, r3, r4, r5⟩ := key g1 g2
      exact ⟨st', ns, F', L, r1, r2, r3, by rw [g4] at r4; exact r4, r5⟩
    · intro es K n m A _ h
      have hl := h.linesN (nlCount nl)
      obtain ⟨st1, g1, g2, g4⟩ := (DocInv.calmHeader hl.lost.inv hl.doc he.2.1).1 (by rw [hE]; exact hok)
      obtain ⟨st', ns, F', L, r1, r2, r3, r4, r5⟩ := key g1 g2
      refine ⟨st', ns, F', m, L, r1, r2, r3, ?_, by simp [sectionTold, tell], r5⟩
      rw [g4] at r4
      exact (hl.iss _).trans (by simpa using r4)
  | bad hbad hs ih =>
    rename_i T G nl w1 t w2 c ls F D B
    intro hw E hE st
    have he := hw (nl, .table w1 (.std t) w2 c) (by simp)
    have key : ∀ {st1 : PState} {es : List ParseError} {n : Nat}, ET.eff (.table w1 (.std t) w2 c) (st.lines (nlCount nl)) = .ok st1 → DocBad E es (nkey t.names) n [] st1 →
        ∃ st' ns F' L, linesEff ((nl, .table w1 (.std t) w2 c) :: ls) st = .ok (st', ns) ∧ AEnts.erase F' = F ∧ After (E ++ F') st' ∧
          BadIss es st'.errors (E.erase.map (·.1)) F D L ∧ Reports L ((t.key, pairsUpTo (sectionTold ls)) :: B) := by
      intro st1 es n g1 g2
      obtain ⟨_, c2⟩ := ih (fun l hl => hw l (by simp [hl])) E hE st1
      obtain ⟨st', ns, F', m', L, r1, r2, r3, r4, r5, r6⟩ := c2 _ _ _ _ _ rfl g2.lost
      refine ⟨st', _, F', _, by rw [linesEff, g1, Out.bind, r1, Out.bind], r2, r3, r4, t.key_eq.symm, fun x => ?_, r6⟩
      rw [r5, show decide (([] : List ParseError) ≠ []) = false by simp, tell_get]
      cases lastGiven x (pairsUpTo (sectionTold ls)) <;> rfl
    constructor
    · intro N _ h
      have hl := h.linesN (nlCount nl)
      exact key (hl.headerBad he.2.1 (by rw [hE]; exact hbad)) (hl.toBad he.2.1 (by rw [hE]; exact hbad) (hl.headerBad he.2.1 (by rw [hE]; exact hbad)))
    · intro es K n m A _ h
      have hl := h.linesN (nlCount nl)
      obtain ⟨st1, g1, g2⟩ := (DocInv.calmHeader hl.lost.inv hl.doc he.2.1).2 (by rw [hE]; exact hbad)
      obtain ⟨st', ns, F', L, r1, r2, r3, r4, r5⟩ := key g1 g2
      refine ⟨st', ns, F', m, L, r1, r2, r3, ?_, by simp [sectionTold, tell], r5⟩
      exact (hl.iss _).trans (by simpa using r4)

/-! ## Panics -/

theorem After.linesN {E : AEnts} {st : PState} (h : After E st) (n : Nat) : After E (st.lines n) := by
  rcases h with ⟨T, h⟩ | ⟨_, _, _, _, _, h⟩
  · exact .inl ⟨T, h.linesN n⟩
  · exact .inr ⟨_, _, _, _, _, h.linesN n⟩

/-- The beginning of a line does not panic. -/
theorem After.total {E : AEnts} {st : PState} (h : After E st) {px : PX} (hw : px.wf) (hn : ∀ t, px ≠ .table (.arr t)) : ∃ st', px.eff st = .ok st' := by
  rcases h with ⟨T, h⟩ | ⟨es, K, n, m, D, h⟩
  · exact PX.eff_total h hw hn
  · have hq : ∀ k, Quiet (st.pushK k) := fun k => ⟨h.lost.inv.pushK k, h.lost.tabs, h.lost.idx⟩
    cases px with
    | nothing => exact ⟨_, rfl⟩
    | header => exact ⟨_, rfl⟩
    | key => exact ⟨_, rfl⟩
    | kv k s last => exact last.eff_quiet (hq k)
    | pair k s v =>
      obtain ⟨st1, e1⟩ := v.eff_quiet (hq k)
      have all1 := v.eff_all (hq k).inv
      rw [e1] at all1
      have f1 := VT.eff_frame e1
      obtain ⟨st2, e2⟩ := keyvalAct_quiet k ((hq k).congr all1.1 f1.tables f1.index) all1.2 (by rw [f1.keychain]; simp [PState.pushK])
      exact ⟨st2, by rw [PX.eff, e1, Out.bind, e2]⟩
    | table t =>
      cases t with
      | arr t => exact absurd rfl (hn t)
      | std t =>
        by_cases hok : HeaderOk E.erase t.names
        · obtain ⟨s, h1, _⟩ := (DocInv.calmHeader h.lost.inv h.doc hw).1 hok
          exact ⟨s, h1⟩
        · obtain ⟨s, h1, _⟩ := (DocInv.calmHeader h.lost.inv h.doc hw).2 hok
          exact ⟨s, h1⟩

theorem census_exists : ∀ {ls : List (Str × ET)} {T : Option Str} {E : List (Str × Entry)}, hasArrayTable ls = false → ¬ ArrayLost T E ls → ∃ F D B, Census T E ls F D B
  | [], T, E, _, _ => ⟨_, _, _, .done⟩
  | (nl, e) :: ls, T, E, hn, ha => by
    have hn' : hasArrayTable ls = false := by
      simp [hasArrayTable] at hn ⊢; exact hn.2
    cases e with
    | blank w =>
      obtain ⟨F, D, B, h⟩ := census_exists (T := T) (E := E) hn' (by cases T <;> simpa [ArrayLost] using ha)
      exact ⟨_, _, _, .blank h⟩
    | comment w c =>
      obtain ⟨F, D, B, h⟩ := census_exists (T := T) (E := E) hn' (by cases T <;> simpa [ArrayLost] using ha)
      exact ⟨_, _, _, .comment h⟩
    | kv w1 k s v w2 c =>
      cases T with
      | some T =>
        obtain ⟨F, D, B, h⟩ := census_exists (T := some T) (E := E ++ pairEntries T k v) hn' (by simpa [ArrayLost] using ha)
        exact ⟨_, _, _, .kv h⟩
      | none =>
        simp only [ArrayLost, not_or] at ha
        obtain ⟨F, D, B, h⟩ := census_exists (T := none) (E := E) hn' ha.2
        exact ⟨_, _, _, .lost (by simpa using ha.1) h⟩
    | table w1 t w2 c =>
      cases t with
      | arr t => simp [hasArrayTable] at hn
      | std t =>
        have ha' : ¬ (HeaderOk E t.names ∧ ArrayLost (some t.key) (E ++ [(t.key, .header)]) ls ∨ ¬ HeaderOk E t.names ∧ ArrayLost none E ls) := by
          cases T <;> simpa [ArrayLost] using ha
        by_cases hok : HeaderOk E t.names
        · obtain ⟨F, D, B, h⟩ := census_exists (T := some t.key) (E := E ++ [(t.key, .header)]) hn' (fun h => ha' (.inl ⟨hok, h⟩))
          exact ⟨_, _, _, .table hok h⟩
        · obtain ⟨F, D, B, h⟩ := census_exists (T := none) (E := E) hn' (fun h => ha' (.inr ⟨hok, h⟩))
          exact ⟨_, _, _, .bad hok h⟩

/-- A panic of a new parser on a text without `[[` comes after an array below a header that is not in order. -/
theorem parse_panic_lost {i : Str} {x : Panic} (hi : ∀ a b, i ≠ a ++ lit% "[[" ++ b) (h : Parser.new.parse i = .panic x) :
    ∃ ls rest, DocWf ls ∧ i = linesText ls ++ rest ∧ ArrayLost (some []) [] ls := by
  have hs := toml_spec PState.new i
  unfold Parser.parse at h
  rw [show Parser.new.st = PState.new from rfl] at h
  generalize toml PState.new i = o at hs h
  cases hs with
  | done ls px nodes r0 r' st1 st2 h1 h2 h3 h4 h5 h6 h7 =>
    dsimp only at h
    split at h <;> split at h <;> simp at h
  | abort ls nl w px nodes r st1 e h1 h2 h3 h4 h5 h6 h7 =>
    have hn : hasArrayTable ls = false := by
      cases hb : hasArrayTable ls with
      | false => rfl
      | true =>
        obtain ⟨a, b, e⟩ := hasArrayTable_text hb
        exact absurd (by rw [h5, e]; simp) (hi a (b ++ nl ++ w ++ px.text ++ r))
    have hpx : ∀ t, px ≠ .table (.arr t) := by
      rintro t rfl
      refine absurd ?_ (hi (linesText ls ++ nl ++ w) (t.text ++ lit% "]]" ++ r))
      rw [h5]; simp [PX.text, TableType.text]
    by_cases ha : ArrayLost (some []) [] ls
    · rcases h1 with rfl | h1
      · exact ha.elim
      · exact ⟨ls, _, h1, by rw [h5]; simp only [List.append_assoc]; rfl, ha⟩
    · exfalso
      have hw : ∀ l ∈ ls, l.2.wf := by
        rcases h1 with rfl | h1
        · simp
        · exact h1.lines
      obtain ⟨F, D, B, hc⟩ := census_exists hn ha
      obtain ⟨a, _⟩ := hc.run hw [] rfl PState.new
      obtain ⟨st, ns, F', L, r1, _, r3, _⟩ := a [] rfl DocInv.new
      rw [h6] at r1
      simp at r1
      obtain ⟨rfl, _⟩ := r1
      obtain ⟨st', g⟩ := (r3.linesN (nlCount nl)).total h4 hpx
      rw [g] at h7
      cases e <;> simp [Abort.out] at h7

end Tomllib
