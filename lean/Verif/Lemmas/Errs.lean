import Verif.Lemmas.Lines
import Verif.Spec.Issues
import Verif.Lemmas.Valid
/-!
# The errors recorded while reading a value
-/

namespace Tomllib

/-- Values as entries. -/
def valEnts (F : List (Str × VT)) : List (Str × Entry) := F.map fun e => (e.1, .val e.2)

theorem valEnts_append (F G : List (Str × VT)) : valEnts (F ++ G) = valEnts F ++ valEnts G := by simp [valEnts]

theorem repeats_append : ∀ (F G : List (Str × Entry)) (seen : List Str),
    repeats seen (F ++ G) = repeats seen F ++ repeats (seen ++ F.map (·.1)) G
  | [], G, seen => by simp [repeats]
  | (k, .val t) :: F, G, seen => by
    simp only [List.cons_append, repeats, List.map_cons]
    split <;> simp [repeats_append F G]
  | (k, .header) :: F, G, seen => by
    simp only [List.cons_append, repeats, List.map_cons]
    simp [repeats_append F G]

/-- The keys that have an address. -/
def Seen (m : KMap) (seen : List Str) : Prop := ∀ x, valOf m x ≠ none ↔ x ∈ seen

/-- The errors added between two states. -/
def Issues (st st' : PState) (seen : List Str) (F D : List (Str × VT)) (M : List Str) : Prop :=
  ∃ l, st'.errors = st.errors ++ l ∧ l.filterMap ParseError.dup? = repeats seen (valEnts F) ∧ l.filterMap ParseError.date? = (valEnts D).filterMap badDate ∧
    (∀ k ∈ l.filterMap ParseError.mixed?, k ∈ M) ∧ (∀ e ∈ l, e.table? = none) ∧ (M ≠ [] → st'.errors ≠ [])

theorem Issues.refl {st st' : PState} (h : st'.errors = st.errors) (seen : List Str) : Issues st st' seen [] [] [] :=
  ⟨[], by simp [h], by simp [repeats, valEnts], by simp [valEnts], by simp, by simp, by simp⟩

theorem Issues.trans {a b c : PState} {seen : List Str} {F F' D D' : List (Str × VT)} {M M' : List Str} (h : Issues a b seen F D M)
    (h' : Issues b c (seen ++ F.map (·.1)) F' D' M') : Issues a c seen (F ++ F') (D ++ D') (M ++ M') := by
  obtain ⟨l, h1, h2, h3, h4, h5, h6⟩ := h
  obtain ⟨l', g1, g2, g3, g4, g5, g6⟩ := h'
  refine ⟨l ++ l', by rw [g1, h1, List.append_assoc], ?_, ?_, ?_, ?_, ?_⟩
  · rw [List.filterMap_append, h2, g2, valEnts_append, repeats_append]
    simp [valEnts, Function.comp_def]
  · rw [List.filterMap_append, h3, g3, valEnts_append, List.filterMap_append]
  · intro k hk
    rw [List.filterMap_append, List.mem_append] at hk
    rw [List.mem_append]
    exact hk.imp (h4 k) (g4 k)
  · intro e he
    rw [List.mem_append] at he
    exact he.elim (h5 e) (g5 e)
  · intro hM
    by_cases hM' : M' = []
    · have := h6 (by simpa [hM'] using hM)
      rw [g1]; simp [this]
    · exact g6 hM'

theorem Issues.congr {a b a' b' : PState} {seen : List Str} {F D : List (Str × VT)} {M : List Str} (h : Issues a b seen F D M)
    (ha : a'.errors = a.errors) (hb : b'.errors = b.errors) : Issues a' b' seen F D M := by
  obtain ⟨l, h1, h2, h3, h4, h5, h6⟩ := h
  exact ⟨l, by rw [ha, hb, h1], h2, h3, h4, h5, by rw [hb]; exact h6⟩

theorem insertKeyval_issues {T : List Str} {st st' : PState} {a : Addr} {seen : List Str} {v : VT} (h : Ctx T st) (hk : PathWf st.keychain)
    (hne : st.keychain ≠ []) (hseen : Seen st.map seen) (hv : toVal st.heap a = .ok v.value) (hs : insertKeyval st a = .ok st') :
    Issues st st' seen [(keyOf [] (names T ++ st.keychain), v)] [] [] := by
  rcases insertKeyval_ctx h hk hne hs with ⟨h1, rfl⟩ | ⟨h1, w, h2, rfl⟩
  · have : ¬ keyOf [] (names T ++ st.keychain) ∈ seen := by rw [← hseen]; simp [h1]
    exact ⟨[], by simp, by simp [repeats, valEnts, this], by simp [valEnts], by simp, by simp, by simp⟩
  · have hm : keyOf [] (names T ++ st.keychain) ∈ seen := (hseen _).mp h1
    rw [h2] at hv; simp at hv; subst hv
    refine ⟨[_], rfl, ?_, ?_, ?_, ?_, by simp⟩
    · simp [repeats, valEnts, hm, ParseError.dup?]
    · simp [valEnts, ParseError.date?]
    · simp [ParseError.mixed?]
    · simp [ParseError.table?]

theorem checkMixed_issues {T : List Str} {st st' : PState} {t p : ArrayType} {L : List ArrayType} (h : Ctx T st) (hk : PathWf st.keychain)
    (hne : st.keychain ≠ []) (hl : st.lastArrayType = L ++ [p]) (hs : checkMixed t st = .ok st') (seen : List Str) :
    Issues st st' seen [] [] (if p ≠ .none ∧ p ≠ t then [keyOf [] (names T ++ st.keychain.dropLast)] else []) ∧ st'.lastArrayType = L ++ [p] := by
  rw [checkMixed, hl, List.getLast?_concat] at hs
  dsimp only at hs
  split at hs
  next hp =>
    simp at hs; subst hs
    have : ¬ (p ≠ .none ∧ p ≠ t) := by
      rintro ⟨h1, h2⟩; exact hp.elim h1 h2
    rw [if_neg this]
    exact ⟨.refl rfl _, hl⟩
  next hp =>
    have hp' : p ≠ .none ∧ p ≠ t := ⟨fun e => hp (.inl e), fun e => hp (.inr e)⟩
    rw [if_pos hp']
    obtain ⟨v, e⟩ := h.fullKey hk hne
    rw [e] at hs
    dsimp only at hs
    have key : ∀ b : Bool, (st.errors = [] → b = true) →
        (if b = true then Out.ok { st with errors := st.errors ++ [.mixedArray (keyOf [] (names T ++ st.keychain.dropLast)) st.lineCount 0] } else Out.ok st) = .ok st' →
        Issues st st' seen [] [] [keyOf [] (names T ++ st.keychain.dropLast)] ∧ st'.lastArrayType = L ++ [p] := by
      intro b hb hs
      cases b with
      | true =>
        rw [if_pos rfl] at hs
        simp only [Out.ok.injEq] at hs; subst hs
        exact ⟨⟨[.mixedArray (keyOf [] (names T ++ st.keychain.dropLast)) st.lineCount 0], rfl, by simp [repeats, valEnts, ParseError.dup?],
          by simp [valEnts, ParseError.date?], by simp [ParseError.mixed?], by simp [ParseError.table?], by simp⟩, hl⟩
      | false =>
        rw [if_neg (by simp)] at hs
        simp only [Out.ok.injEq] at hs; subst hs
        exact ⟨⟨[], by simp, by simp [repeats, valEnts], by simp [valEnts], by simp, by simp, fun _ he => by simpa using hb he⟩, hl⟩
    rw [← hl] at hs
    refine key _ (fun he => ?_) hs
    rw [he]; rfl

theorem Scalar.eff_issues {T : List Str} {st st' : PState} {s : Scalar} (h : Ctx T st) (hk : PathWf st.keychain) (hne : st.keychain ≠ [])
    (hs : s.eff st = .ok st') (seen : List Str) :
    Issues st st' seen [] [(keyOf [] (names T ++ st.keychain), .leaf s)] [] ∧ st'.lastArrayType = st.lastArrayType := by
  have triv : ∀ {st' : PState} {s : Scalar}, (∀ d, s ≠ .dt d) → st'.errors = st.errors → st'.lastArrayType = st.lastArrayType →
      Issues st st' seen [] [(keyOf [] (names T ++ st.keychain), .leaf s)] [] ∧ st'.lastArrayType = st.lastArrayType := by
    intro st' s h0 h1 h2
    refine ⟨⟨[], by simp [h1], by simp [repeats, valEnts], ?_, by simp, by simp, by simp⟩, h2⟩
    cases s <;> first | (simp [valEnts, badDate]; done) | exact absurd rfl (h0 _)
  cases s with
  | dt d =>
    rw [Scalar.eff] at hs
    split at hs
    next hv =>
      simp at hs; subst hs
      exact ⟨⟨[], by simp, by simp [repeats, valEnts], by simp [valEnts, badDate, hv], by simp, by simp, by simp⟩, rfl⟩
    next hv =>
      obtain ⟨v, e⟩ := h.fullKey hk hne
      rw [e] at hs
      simp [Out.bind] at hs; subst hs
      exact ⟨⟨[_], rfl, by simp [repeats, valEnts, ParseError.dup?], by simp [valEnts, badDate, hv, ParseError.date?], by simp [ParseError.mixed?],
        by simp [ParseError.table?], by simp⟩, rfl⟩
  | str x ty =>
    cases ty <;> simp [Scalar.eff] at hs <;> subst hs <;> exact triv (by simp) rfl rfl
  | _ => simp [Scalar.eff] at hs; subst hs; exact triv (by simp) rfl rfl

theorem insertKeyval_lat {st st' : PState} {a : Addr} (hs : insertKeyval st a = .ok st') : st'.lastArrayType = st.lastArrayType := by
  simp only [insertKeyval, Out.bind_eq, Out.bind_ok] at hs
  obtain ⟨⟨x, y⟩, _, hs⟩ := hs
  dsimp only at hs
  split at hs
  · rw [Out.bind_ok] at hs
    obtain ⟨v, _, hs⟩ := hs
    simp at hs; subst hs; rfl
  · split at hs
    · simp at hs
    · simp at hs; subst hs; rfl

theorem keyvalAct_lat {k : Str} {st st' : PState} {a : Addr} (hs : keyvalAct k a st = .ok st') : st'.lastArrayType = st.lastArrayType := by
  simp only [keyvalAct, Out.bind_eq, Out.bind_ok] at hs
  obtain ⟨st1, h1, hs⟩ := hs
  simp at hs; subst hs
  show st1.lastArrayType = _
  split at h1
  · split at h1
    · simp at h1
    · rw [Out.bind_ok] at h1
      obtain ⟨v, _, h1⟩ := h1
      simp at h1; subst h1; rfl
    · simp at h1; subst h1; rfl
  · exact insertKeyval_lat h1

theorem arrayValueAct_issues {T : List Str} {st st' : PState} {a : Addr} {kc : List Key} {i : Nat} {p : ArrayType} {L : List ArrayType} {seen : List Str}
    {v : VT} {c : TVal} (h : Ctx T st) (hk : PathWf kc) (hne : kc ≠ []) (hkc : st.keychain = kc ++ [.idx i]) (hl : st.lastArrayType = L ++ [p])
    (hseen : Seen st.map seen) (hv : toVal st.heap a = .ok v.value) (hc : st.heap[a]? = some c) (hck : c.arrayType = .ok v.kind)
    (hs : arrayValueAct a st = .ok st') :
    Issues st st' seen [(keyOf [] (names T ++ kc ++ [.idx i]), v)] [] (if p ≠ .none ∧ p ≠ v.kind then [keyOf [] (names T ++ kc)] else []) ∧
      st'.lastArrayType = L ++ [v.kind] := by
  simp only [arrayValueAct, Out.bind_eq, hc, Out.bind, hck] at hs
  cases hm : checkMixed v.kind st with
  | panic x => rw [hm] at hs; simp at hs
  | fuel => rw [hm] at hs; simp at hs
  | ok st1 =>
  rw [hm] at hs
  dsimp only at hs
  have hpw : PathWf st.keychain := by rw [hkc]; exact hk.append hne (by simp)
  have hne1 : st.keychain ≠ [] := by rw [hkc]; simp
  obtain ⟨i1, l1⟩ := checkMixed_issues h hpw hne1 hl hm seen
  have f1 := checkMixed_frame hm
  have m1 := checkMixed_map hm
  have c1 : Ctx T { st1 with lastArrayType := st1.lastArrayType.dropLast ++ [v.kind] } := (h.frame f1).congr rfl rfl rfl rfl
  cases h2 : insertKeyval { st1 with lastArrayType := st1.lastArrayType.dropLast ++ [v.kind] } a with
  | panic x => rw [h2] at hs; simp at hs
  | fuel => rw [h2] at hs; simp at hs
  | ok st2 =>
  rw [h2] at hs
  dsimp only at hs
  have k1 : st1.keychain = st.keychain := f1.keychain
  have hh : st1.heap = st.heap := checkMixed_heap hm
  have i2 := insertKeyval_issues (seen := seen) (v := v) c1 (by rw [k1]; exact hpw) (by rw [k1]; exact hne1)
    (by rw [show (PState.map _) = st.map from m1]; exact hseen) (by rw [show (PState.heap _) = st.heap from hh]; exact hv) h2
  have l2 := insertKeyval_lat h2
  dsimp only at l2 i2
  rw [l1] at l2
  rw [k1, hkc] at i2
  split at hs
  · simp at hs
  next k0 _ =>
    simp at hs
    subst hs
    refine ⟨?_, by simpa using l2⟩
    rw [hkc] at i1
    have i2' := i2.congr (a' := st1) (b' := { st2 with keychain := st2.keychain.dropLast ++ [Key.inc k0] }) rfl rfl
    have := i1.trans (by simpa using i2')
    simpa using this

theorem keyvalAct_issues {T : List Str} {st st' : PState} {a : Addr} {k : Str} {seen : List Str} {v : VT} (h : Ctx T st)
    (hk : PathWf st.keychain) (hne : st.keychain ≠ []) (hseen : Seen st.map seen) (hv : toVal st.heap a = .ok v.value)
    (hs : keyvalAct k a st = .ok st') : Issues st st' seen [(keyOf [] (names T ++ st.keychain), v)] [] [] := by
  simp only [keyvalAct, Out.bind_eq, Out.bind_ok] at hs
  obtain ⟨st1, h1, hs⟩ := hs
  have he : ¬ st.arrayError = true := by rw [h.2.1]; simp
  rw [if_neg he] at h1
  simp at hs; subst hs
  exact (insertKeyval_issues h hk hne hseen hv h1).congr rfl rfl

/-- Do neighbours differ in kind? -/
def adj : ArrayType → List ArrayType → Bool
  | _, [] => false
  | p, k :: ks => decide (p ≠ .none ∧ p ≠ k) || adj k ks

/-- The kind of the last element. -/
def lastKind : ArrayType → List ArrayType → ArrayType
  | p, [] => p
  | _, k :: ks => lastKind k ks

mutual
/-- The keys of the mixed arrays in a value with the key `K`. -/
def VT.mixedKeys (K : Str) : VT → List Str
  | .leaf _ => []
  | .arr es _ _ => es.mixedKeys K 0 ++ (if adj .none es.kinds then [K] else [])
  | .itab kvs _ => kvs.mixedKeys K
def Elems.mixedKeys (K : Str) (i : Nat) : Elems → List Str
  | .nil => []
  | .cons v _ _ r => v.mixedKeys (indexed K i) ++ r.mixedKeys K (i + 1)
def Pairs.mixedKeys (K : Str) : Pairs → List Str
  | .nil => []
  | .cons k _ v _ _ r => v.mixedKeys (dotted K k) ++ r.mixedKeys K
end

theorem VT.cells_last (t : VT) (pre : Heap) : ∃ c, (pre ++ t.cells pre.length)[t.addr pre.length]? = some c ∧ c.arrayType = .ok t.kind := by
  obtain ⟨fp, hr, _⟩ := t.rep_cells pre []
  rw [List.append_nil] at hr
  cases t with
  | leaf s =>
    refine ⟨s.cell, hr.1, ?_⟩
    cases s <;> rfl
  | arr es c1 c2 =>
    obtain ⟨vs, f, h1, _⟩ := hr
    exact ⟨_, h1, rfl⟩
  | itab kvs ws =>
    obtain ⟨vs, f, h1, _⟩ := hr
    exact ⟨_, h1, rfl⟩

/-- What a value that was just read is. -/
theorem VT.eff_read {t : VT} {st st' : PState} (hi : Inv st) (h : t.eff st = .ok st') :
    toVal st'.heap (st'.heap.length - 1) = .ok t.value ∧ ∃ c, st'.heap[st'.heap.length - 1]? = some c ∧ c.arrayType = .ok t.kind := by
  have hh := VT.eff_heap _ _ _ h
  have all := t.eff_all hi
  rw [h] at all
  obtain ⟨r, hr⟩ := all.1.rank
  rw [VT.eff_addr h]
  obtain ⟨fp, hrep, _⟩ := t.rep_cells st.heap []
  rw [List.append_nil, ← hh] at hrep
  refine ⟨hrep.toVal hr, ?_⟩
  rw [hh]
  exact t.cells_last st.heap

theorem Seen.of_val {m m' : KMap} {seen : List Str} {F : List (Str × Addr × VT)} {F' : List (Str × VT)} (h : Seen m seen)
    (hF : F.map (fun e => (e.1, e.2.2)) = F') (hv : ∀ x, valOf m' x = (valOf m x).or ((lookup x F).map (·.1))) :
    Seen m' (seen ++ F'.map (·.1)) := by
  intro x
  rw [hv x, List.mem_append, ← h x]
  subst hF
  cases e : valOf m x with
  | some y => simp
  | none =>
    simp only [Option.none_or, ne_eq, not_true_eq_false, false_or, Option.map_eq_none_iff, lookup_none]
    simp

theorem Seen.one {m m' : KMap} {seen : List Str} {K : Str} {a : Addr} {v : VT} (h : Seen m seen)
    (hv : ∀ x, valOf m' x = (valOf m x).or (if K = x then some a else none)) : Seen m' (seen ++ [(K, v)].map (·.1)) :=
  h.of_val (F := [(K, a, v)]) rfl fun x => by
    rw [hv x]; simp only [lookup]; split <;> rfl

mutual
theorem VT.eff_issues : ∀ (t : VT) {T : List Str} {st st' : PState} {seen : List Str}, Ctx T st → Inv st → PathWf st.keychain → st.keychain ≠ [] → t.wf →
    Seen st.map seen → t.eff st = .ok st' →
    Issues st st' seen (t.entries (keyOf [] (names T ++ st.keychain))) (t.allEntries (keyOf [] (names T ++ st.keychain)))
      (t.mixedKeys (keyOf [] (names T ++ st.keychain))) ∧ st'.lastArrayType = st.lastArrayType
  | .leaf s, T, st, st', seen, hc, hi, hk, hne, hw, hseen, h => by
    rw [VT.eff, Out.bind_ok] at h
    obtain ⟨st1, h1, h⟩ := h
    simp at h; subst h
    obtain ⟨i1, l1⟩ := Scalar.eff_issues hc hk hne h1 seen
    simp only [VT.entries, VT.allEntries, List.nil_append, VT.mixedKeys]
    exact ⟨i1.congr rfl rfl, l1⟩
  | .arr es c1 c2, T, st, st', seen, hc, hi, hk, hne, hw, hseen, h => by
    rw [VT.eff, Out.bind_ok] at h
    obtain ⟨st1, h1, h⟩ := h
    simp at h; subst h
    rw [VT.wf] at hw
    obtain ⟨i1, l1⟩ := Elems.eff_issues es (T := T) (st := st.openArr) (kc := st.keychain) (i := 0) (p := .none) (L := st.lastArrayType)
      (hc.congr rfl rfl rfl rfl) hi.openArr hk hne rfl hw.2.1 hseen rfl h1
    have hd : (valEnts (VT.allEntries (keyOf [] (names T ++ st.keychain)) (.arr es c1 c2))).filterMap badDate =
        (valEnts (es.entries (keyOf [] (names T ++ st.keychain)) 0)).filterMap badDate := by
      simp [VT.allEntries, VT.entries, valEnts, badDate]
    refine ⟨?_, ?_⟩
    · obtain ⟨l, a1, a2, a3, a4, a5, a6⟩ := i1
      exact ⟨l, a1, a2, a3.trans hd.symm, a4, a5, a6⟩
    · show st1.lastArrayType.dropLast = _
      rw [l1]; simp
  | .itab kvs ws, T, st, st', seen, hc, hi, hk, hne, hw, hseen, h => by
    rw [VT.eff, Out.bind_ok] at h
    obtain ⟨st1, h1, h⟩ := h
    simp at h; subst h
    rw [VT.wf] at hw
    obtain ⟨i1, l1⟩ := Pairs.eff_issues kvs hc hi hk hne hw.2 hseen h1
    have hd : (valEnts (VT.allEntries (keyOf [] (names T ++ st.keychain)) (.itab kvs ws))).filterMap badDate =
        (valEnts (kvs.entries (keyOf [] (names T ++ st.keychain)))).filterMap badDate := by
      simp [VT.allEntries, VT.entries, valEnts, badDate]
    obtain ⟨l, a1, a2, a3, a4, a5, a6⟩ := i1
    exact ⟨⟨l, a1, a2, a3.trans hd.symm, a4, a5, a6⟩, l1⟩
theorem Elems.eff_issues : ∀ (t : Elems) {T : List Str} {st st' : PState} {seen : List Str} {kc : List Key} {i : Nat} {p : ArrayType} {L : List ArrayType},
    Ctx T st → Inv st → PathWf kc → kc ≠ [] → st.keychain = kc ++ [.idx i] → t.wf → Seen st.map seen → st.lastArrayType = L ++ [p] → t.eff st = .ok st' →
    Issues st st' seen (t.entries (keyOf [] (names T ++ kc)) i) (t.entries (keyOf [] (names T ++ kc)) i)
      (t.mixedKeys (keyOf [] (names T ++ kc)) i ++ (if adj p t.kinds then [keyOf [] (names T ++ kc)] else [])) ∧
    st'.lastArrayType = L ++ [lastKind p t.kinds]
  | .nil, T, st, st', seen, kc, i, p, L, hc, hi, hk, hne, hkc, hw, hseen, hl, h => by
    simp [Elems.eff] at h; subst h
    exact ⟨.refl rfl _, hl⟩
  | .cons v sep cn r, T, st, st', seen, kc, i, p, L, hc, hi, hk, hne, hkc, hw, hseen, hl, h => by
    rw [Elems.eff, Out.bind_ok] at h
    obtain ⟨st1, h1, h⟩ := h
    rw [Out.bind_ok] at h
    obtain ⟨st2, h2, h⟩ := h
    rw [Elems.wf] at hw
    have hpw : PathWf st.keychain := by rw [hkc]; exact hk.append hne (by simp)
    have hne1 : st.keychain ≠ [] := by rw [hkc]; simp
    have all1 := v.eff_all hi
    rw [h1] at all1
    have f1 := VT.eff_frame h1
    have hc1 := hc.frame f1
    obtain ⟨i1, l1⟩ := VT.eff_issues v hc hi hpw hne1 hw.1 hseen h1
    obtain ⟨a1, _⟩ := VT.eff_val v hc hpw hne1 hw.1 h1
    obtain ⟨r1, c, r2, r3⟩ := VT.eff_read hi h1
    have hs1 := hseen.of_val (v.aents_entries _ _) a1
    obtain ⟨i2, l2⟩ := arrayValueAct_issues hc1 hk hne (f1.keychain.trans hkc) (l1.trans hl) hs1 r1 r2 r3 h2
    obtain ⟨b0, b1, _⟩ := arrayValueAct_val hc1 hk hne (f1.keychain.trans hkc) h2
    have hs2 := hs1.one (v := v) b1
    have hc2 := hc1.frame' (arrayValueAct_frame h2)
    have all2 := arrayValueAct_all all1.1 all1.2
    rw [h2] at all2
    obtain ⟨i3, l3⟩ := Elems.eff_issues r hc2 all2 hk hne b0 hw.2.2.2 hs2 l2 h
    have hK : keyOf [] (names T ++ kc ++ [.idx i]) = indexed (keyOf [] (names T ++ kc)) i := by
      rw [keyOf_append]; rfl
    rw [hkc, ← List.append_assoc, hK] at i1 i2 i3
    refine ⟨?_, l3⟩
    have := (i1.trans i2).trans (by simpa using i3)
    obtain ⟨l, a1, a2, a3, a4, a5, a6⟩ := this
    have hmem : ∀ x, x ∈ (Elems.cons v sep cn r).mixedKeys (keyOf [] (names T ++ kc)) i ++
          (if adj p (Elems.cons v sep cn r).kinds = true then [keyOf [] (names T ++ kc)] else []) ↔
        x ∈ v.mixedKeys (indexed (keyOf [] (names T ++ kc)) i) ++
          (if p ≠ .none ∧ p ≠ v.kind then [keyOf [] (names T ++ kc)] else []) ++
          (r.mixedKeys (keyOf [] (names T ++ kc)) (i + 1) ++ (if adj v.kind r.kinds = true then [keyOf [] (names T ++ kc)] else [])) := by
      intro x
      simp only [Elems.mixedKeys, Elems.kinds, adj, List.mem_append]
      by_cases hp : p ≠ .none ∧ p ≠ v.kind
      · simp [hp]; grind
      · cases ha : adj v.kind r.kinds <;> simp [hp] <;> grind
    refine ⟨l, a1, ?_, ?_, ?_, a5, ?_⟩
    · rw [a2]; simp [Elems.entries]
    · rw [a3]; simp [Elems.entries, VT.allEntries]
    · intro k hk; exact (hmem k).mpr (a4 k hk)
    · intro hM
      apply a6
      intro e
      obtain ⟨x, hx⟩ := List.exists_mem_of_ne_nil _ hM
      rw [hmem, e] at hx
      simp at hx
theorem Pairs.eff_issues : ∀ (t : Pairs) {T : List Str} {st st' : PState} {seen : List Str}, Ctx T st → Inv st → PathWf st.keychain → st.keychain ≠ [] → t.wf →
    Seen st.map seen → t.eff st = .ok st' →
    Issues st st' seen (t.entries (keyOf [] (names T ++ st.keychain))) (t.entries (keyOf [] (names T ++ st.keychain)))
      (t.mixedKeys (keyOf [] (names T ++ st.keychain))) ∧ st'.lastArrayType = st.lastArrayType
  | .nil, T, st, st', seen, hc, hi, hk, hne, hw, hseen, h => by
    simp [Pairs.eff] at h; subst h
    exact ⟨.refl rfl _, rfl⟩
  | .cons k ws v sep cn r, T, st, st', seen, hc, hi, hk, hne, hw, hseen, h => by
    rw [Pairs.eff, Out.bind_ok] at h
    obtain ⟨st1, h1, h⟩ := h
    rw [Out.bind_ok] at h
    obtain ⟨st2, h2, h⟩ := h
    rw [Pairs.wf] at hw
    have hpw : PathWf (st.pushK k).keychain := hk.push hw.1
    have hne1 : (st.pushK k).keychain ≠ [] := by simp [PState.pushK]
    have hcp : Ctx T (st.pushK k) := hc.congr rfl rfl rfl rfl
    have all1 := v.eff_all (hi.pushK k)
    rw [h1] at all1
    have f1 := VT.eff_frame h1
    have hc1 := hcp.frame f1
    obtain ⟨i1, l1⟩ := VT.eff_issues v hcp (hi.pushK k) hpw hne1 hw.2.2.1 hseen h1
    obtain ⟨a1, _⟩ := VT.eff_val v hcp hpw hne1 hw.2.2.1 h1
    obtain ⟨r1, _⟩ := VT.eff_read (hi.pushK k) h1
    have hs1 := Seen.of_val (show Seen (st.pushK k).map seen from hseen) (v.aents_entries _ _) a1
    have i2 := keyvalAct_issues (v := v) hc1 (by rw [f1.keychain]; exact hpw) (by rw [f1.keychain]; exact hne1) hs1 r1 h2
    have hpk : (st.pushK k).keychain = st.keychain ++ [.str k] := rfl
    obtain ⟨b0, b1, _⟩ := keyvalAct_val hc1 hw.1 hk f1.keychain h2
    have hs2 := hs1.one (v := v) b1
    have all2 := keyvalAct_all (k := k) all1.1 all1.2
    rw [h2] at all2
    have hc2 : Ctx T st2 := by
      have f2 := (keyvalAct_frame h2).2
      exact hc1.congr f2.lastTable f2.tables f2.index f2.err
    obtain ⟨i3, l3⟩ := Pairs.eff_issues r hc2 all2 (by rw [b0]; exact hk) (by rw [b0]; exact hne) hw.2.2.2.2.2 hs2 h
    have hK : keyOf [] (names T ++ st.keychain ++ [.str k]) = dotted (keyOf [] (names T ++ st.keychain)) k := by
      rw [keyOf_append]; rfl
    rw [f1.keychain] at i2
    rw [b0] at i3
    rw [hpk, ← List.append_assoc, hK] at i1 i2 i3
    refine ⟨?_, l3.trans ((keyvalAct_lat h2).trans l1)⟩
    have := (i1.trans i2).trans (by simpa using i3)
    have := this.congr (a' := st) (b' := st') rfl rfl
    simpa [Pairs.entries, VT.allEntries, Pairs.mixedKeys] using this
end

end Tomllib
