import Verif.Lemmas.Clean
import Verif.Spec.Spots
/-!
# Errors are about places of the text
-/

namespace Tomllib

theorem datesOf_append (a b : List (Spot × Nat)) : datesOf (a ++ b) = datesOf a ++ datesOf b := List.filterMap_append ..

/-- How the list `L` of what is reported grows to `L'` when the places `F` are passed in order. A mixed array is reported if there is no error yet, and it can only be reported
if the error before is of its kind; a date or time that does not exist is always reported. -/
inductive Tells : List (Spot × Nat) → List (Spot × Nat) → List (Spot × Nat) → Prop where
  | nil (L : List (Spot × Nat)) : Tells L [] L
  | told {L F L' : List (Spot × Nat)} {x : Spot × Nat} (hx : x.1 = .mixed → ∀ y, L.getLast? = some y → y.1 = .mixed) (h : Tells (L ++ [x]) F L') : Tells L (x :: F) L'
  | silent {L F L' : List (Spot × Nat)} {x : Spot × Nat} (hd : datesOf [x] = []) (hm : x.1 = .mixed → L ≠ []) (h : Tells L F L') : Tells L (x :: F) L'

theorem Tells.trans {L F L' G L'' : List (Spot × Nat)} (h : Tells L F L') (h' : Tells L' G L'') : Tells L (F ++ G) L'' := by
  induction h with
  | nil => exact h'
  | told hx _ ih => exact .told hx (ih h')
  | silent hd hm _ ih => exact .silent hd hm (ih h')

theorem Tells.added {L F L' : List (Spot × Nat)} (h : Tells L F L') : ∃ l, L' = L ++ l ∧ l.Sublist F ∧ datesOf l = datesOf F := by
  induction h with
  | nil => exact ⟨[], by simp, .slnil, rfl⟩
  | told hx _ ih =>
    obtain ⟨l, h1, h2, h3⟩ := ih
    refine ⟨_ :: l, by rw [h1, List.append_assoc]; rfl, h2.cons_cons _, ?_⟩
    show datesOf ([_] ++ l) = datesOf ([_] ++ _)
    rw [datesOf_append, datesOf_append, h3]
  | silent hd hm _ ih =>
    obtain ⟨l, h1, h2, h3⟩ := ih
    refine ⟨l, h1, h2.cons _, ?_⟩
    rw [← List.singleton_append, datesOf_append, h3, hd]; rfl

/-- If nothing is reported in the end, nothing was before, and no place is a mixed array. -/
theorem Tells.clean {L F L' : List (Spot × Nat)} (h : Tells L F L') (he : L' = []) : L = [] ∧ ∀ x ∈ F, x.1 ≠ .mixed := by
  induction h with
  | nil => exact ⟨he, by simp⟩
  | told hx _ ih => exact absurd (ih he).1 (by simp)
  | silent hd hm _ ih =>
    obtain ⟨h1, h2⟩ := ih he
    exact ⟨h1, fun x hx => (List.mem_cons.mp hx).elim (fun e hm' => hm (e ▸ hm') h1) (h2 x)⟩

/-- After an error of another kind no mixed array is reported. -/
theorem Tells.other {L F L' : List (Spot × Nat)} (h : Tells L F L') {y : Spot × Nat} (hy : L.getLast? = some y) (hm : y.1 ≠ .mixed) :
    ∃ l, L' = L ++ l ∧ ∀ x ∈ l, x.1 ≠ .mixed := by
  induction h generalizing y with
  | nil => exact ⟨[], by simp⟩
  | @told L F L' x hx _ ih =>
    have hx' : x.1 ≠ .mixed := fun e => hm (hx e y hy)
    obtain ⟨l, h1, h2⟩ := ih (y := x) (by simp) hx'
    exact ⟨x :: l, by rw [h1, List.append_assoc]; rfl, fun z hz => (List.mem_cons.mp hz).elim (· ▸ hx') (h2 z)⟩
  | silent _ _ _ ih => exact ih hy hm

/-- Mixed arrays are reported before all others. -/
theorem Tells.first {L F L' : List (Spot × Nat)} (h : Tells L F L') (hL : ∀ x ∈ L, x.1 = .mixed) :
    ∃ a b, L' = a ++ b ∧ (∀ x ∈ a, x.1 = .mixed) ∧ (∀ x ∈ b, x.1 ≠ .mixed) := by
  induction h with
  | nil L => exact ⟨L, [], by simp, hL, by simp⟩
  | @told L F L' x hx h ih =>
    by_cases hm : x.1 = .mixed
    · exact ih (fun z hz => by
        rcases List.mem_append.mp hz with hz | hz
        · exact hL z hz
        · simp at hz; exact hz ▸ hm)
    · obtain ⟨l, h1, h2⟩ := h.other (y := x) (by simp) hm
      exact ⟨L, x :: l, by rw [h1, List.append_assoc]; rfl, hL, fun z hz => (List.mem_cons.mp hz).elim (· ▸ hm) (h2 z)⟩
  | silent _ _ _ ih => exact ih hL

/-- The first mixed array is reported unless an error of another kind is reported before. -/
theorem Tells.reached {L F L' : List (Spot × Nat)} (h : Tells L F L') {s1 s2 : List (Spot × Nat)} {x : Spot × Nat} (hF : F = s1 ++ x :: s2)
    (h1 : ∀ y ∈ s1, y.1 ≠ .mixed) (hx : x.1 = .mixed) :
    ∃ a b, L' = L ++ (a ++ b) ∧ a.Sublist s1 ∧ b.Sublist (x :: s2) ∧ (L = [] → a = [] → b.head? = some x) ∧ (a ≠ [] → ∀ y ∈ b, y.1 ≠ .mixed) := by
  induction s1 generalizing L F with
  | nil =>
    subst hF
    cases h with
    | told hx' h =>
      obtain ⟨l, g1, g2, _⟩ := h.added
      exact ⟨[], x :: l, by rw [g1, List.append_assoc]; rfl, .slnil, g2.cons_cons _, fun _ _ => rfl, by simp⟩
    | silent hd hm h =>
      obtain ⟨l, g1, g2, _⟩ := h.added
      exact ⟨[], l, g1, .slnil, g2.cons _, fun e => absurd e (hm hx), by simp⟩
  | cons z s1 ih =>
    subst hF
    have hz := h1 z (by simp)
    cases h with
    | told hx' h =>
      obtain ⟨a, b, g1, g2, g3, _, _⟩ := ih h rfl (fun y hy => h1 y (by simp [hy]))
      obtain ⟨l, k1, k2⟩ := h.other (y := z) (by simp) hz
      have : l = a ++ b := List.append_cancel_left (k1.symm.trans g1)
      subst this
      exact ⟨z :: a, b, by rw [g1, List.append_assoc]; rfl, g2.cons_cons _, g3, fun _ e => by simp at e, fun _ y hy => k2 y (by simp [hy])⟩
    | silent hd hm h =>
      obtain ⟨a, b, g1, g2, g3, g4, g5⟩ := ih h rfl (fun y hy => h1 y (by simp [hy]))
      exact ⟨a, b, g1, g2.cons _, g3, g4, g5⟩

/-- From one state to another, errors have been added that are about some of the places `F`. -/
structure Blames (F : List (Spot × Nat)) (st st' : PState) : Prop where
  tells : Tells (st.errors.map ParseError.spot) F (st'.errors.map ParseError.spot)

theorem Blames.added {F : List (Spot × Nat)} {st st' : PState} (h : Blames F st st') :
    ∃ l, st'.errors.map ParseError.spot = st.errors.map ParseError.spot ++ l ∧ l.Sublist F ∧ datesOf l = datesOf F := h.tells.added

theorem Blames.clean {F : List (Spot × Nat)} {st st' : PState} (h : Blames F st st') (he : st'.errors = []) : st.errors = [] ∧ ∀ x ∈ F, x.1 ≠ .mixed := by
  obtain ⟨h1, h2⟩ := h.tells.clean (by simp [he])
  exact ⟨by simpa using h1, h2⟩

theorem Blames.same {st st' : PState} (h : st'.errors = st.errors) : Blames [] st st' := ⟨h ▸ .nil _⟩

theorem Blames.trans {F G : List (Spot × Nat)} {a b c : PState} (h : Blames F a b) (h' : Blames G b c) : Blames (F ++ G) a c := ⟨h.tells.trans h'.tells⟩

theorem Blames.congr {F : List (Spot × Nat)} {a b a' b' : PState} (h : Blames F a b) (ha : a'.errors = a.errors) (hb : b'.errors = b.errors) : Blames F a' b' :=
  ⟨by rw [ha, hb]; exact h.tells⟩

theorem Blames.one {st st' : PState} {x : Spot × Nat} (e : ParseError) (h : st'.errors = st.errors ++ [e]) (hx : e.spot = x)
    (hm : x.1 = .mixed → ∀ y, st.errors.getLast? = some y → y.spot.1 = .mixed) : Blames [x] st st' := by
  refine ⟨.told (fun hx' y hy => ?_) (by rw [h, List.map_append, List.map_singleton, hx]; exact .nil _)⟩
  rw [List.getLast?_map, Option.map_eq_some_iff] at hy
  obtain ⟨z, hz, rfl⟩ := hy
  exact hm hx' z hz

/-- The place is passed over. -/
theorem Blames.skip {st st' : PState} {x : Spot × Nat} (h : st'.errors.map ParseError.spot = st.errors.map ParseError.spot) (hd : datesOf [x] = [])
    (hm : x.1 = .mixed → st.errors ≠ []) : Blames [x] st st' :=
  ⟨.silent hd (fun e => by simpa using hm e) (by rw [h]; exact .nil _)⟩

theorem insertKeyval_blames {st st' : PState} {a : Addr} {v : Value} (hv : toVal st.heap a = .ok v) (hs : insertKeyval st a = .ok st') :
    Blames [(.value v, st.lineCount)] st st' := by
  simp only [insertKeyval, Out.bind_eq, Out.bind_ok] at hs
  obtain ⟨⟨x, y⟩, _, hs⟩ := hs
  dsimp only at hs
  split at hs
  · rw [hv] at hs
    simp [Out.bind] at hs; subst hs; exact .one _ rfl rfl (by simp)
  · split at hs
    · simp at hs
    · simp at hs; subst hs; exact .skip rfl rfl (by simp)

theorem keyvalAct_blames {k : Str} {st st' : PState} {a : Addr} {v : Value} (hv : toVal st.heap a = .ok v) (hs : keyvalAct k a st = .ok st') :
    Blames [(.value v, st.lineCount)] st st' := by
  simp only [keyvalAct, Out.bind_eq, Out.bind_ok] at hs
  obtain ⟨st1, h1, hs⟩ := hs
  simp at hs; subst hs
  refine Blames.congr (a := st) (b := st1) ?_ rfl rfl
  split at h1
  · split at h1
    · simp at h1
    next key line col m he =>
      rw [hv] at h1
      simp [Out.bind] at h1; subst h1
      refine .skip ?_ rfl (by simp)
      have hd : st.errors = st.errors.dropLast ++ [.invalidTable key line col m] := by
        obtain ⟨ys, hy⟩ := List.getLast?_eq_some_iff.mp he
        rw [hy]; simp
      conv => rhs; rw [hd]
      simp [ParseError.spot]
    · simp at h1; subst h1; exact .skip rfl rfl (by simp)
  · exact insertKeyval_blames hv h1

theorem checkMixed_blames {st st' : PState} {t p : ArrayType} {L : List ArrayType} (hl : st.lastArrayType = L ++ [p]) (hs : checkMixed t st = .ok st') :
    Blames (if p = .none ∨ p = t then [] else [(.mixed, st.lineCount)]) st st' ∧ st'.lastArrayType = L ++ [p] ∧ st'.heap = st.heap ∧ st'.lineCount = st.lineCount := by
  rw [checkMixed, hl, List.getLast?_concat] at hs
  dsimp only at hs
  split at hs
  next hp => simp at hs; subst hs; rw [if_pos hp]; exact ⟨.same rfl, hl, rfl, rfl⟩
  next hp =>
    rw [if_neg hp]
    split at hs
    · simp at hs
    · simp at hs
    · have key : ∀ b : Bool, (st.errors = [] → b = true) → (b = true → ∀ y, st.errors.getLast? = some y → y.spot.1 = .mixed) → ∀ k, (if b = true then Out.ok { st with errors := st.errors ++ [.mixedArray k st.lineCount 0] } else Out.ok st) = .ok st' →
          Blames [(.mixed, st.lineCount)] st st' ∧ st'.lastArrayType = L ++ [p] ∧ st'.heap = st.heap ∧ st'.lineCount = st.lineCount := by
        intro b hb hb' e hs
        cases b with
        | true =>
          rw [if_pos rfl] at hs
          simp only [Out.ok.injEq] at hs; subst hs
          exact ⟨.one _ rfl rfl fun _ => hb' rfl, hl, rfl, rfl⟩
        | false =>
          rw [if_neg (by simp)] at hs
          simp only [Out.ok.injEq] at hs; subst hs
          exact ⟨.skip rfl rfl fun _ he => by simpa using hb he, hl, rfl, rfl⟩
      refine key _ (fun he => ?_) (fun hb y hy => ?_) _ (by rw [← hl] at hs; exact hs)
      · rw [he]; rfl
      · rw [hy] at hb
        cases y <;> first | rfl | simp at hb

theorem arrayValueAct_blames {st0 st st' : PState} {v : VT} {L : List ArrayType} {p : ArrayType} (hv : v.eff st0 = .ok st) (hl : st.lastArrayType = L ++ [p])
    (hs : arrayValueAct (st.heap.length - 1) st = .ok st') :
    Blames ((if p = .none ∨ p = v.kind then [] else [(.mixed, st.lineCount)]) ++ [(.value v.value, st.lineCount)]) st st' ∧ st'.lastArrayType = L ++ [v.kind] := by
  obtain ⟨fp, hr⟩ := VT.rep_after hv
  obtain ⟨c, hc, hck⟩ := hr.kind
  simp only [arrayValueAct, Out.bind_eq, hc, Out.bind, hck] at hs
  have hs := Out.bind_ok.mp hs
  obtain ⟨s1, h1, hs⟩ := hs
  have hs := Out.bind_ok.mp hs
  obtain ⟨s2, h2, hs⟩ := hs
  obtain ⟨b1, b2, b3, b4⟩ := checkMixed_blames hl h1
  have hb := insertKeyval_blames (v := v.value) (by dsimp only; rw [b3]; exact VT.toVal_after hv) h2
  have hlat := insertKeyval_lat h2
  dsimp only at hlat hb
  rw [b4] at hb
  split at hs
  · simp at hs
  · simp at hs; subst hs
    refine ⟨b1.trans (hb.congr rfl rfl), ?_⟩
    dsimp only
    rw [hlat, b2]; simp

theorem Scalar.eff_blames {s : Scalar} {st st' : PState} (h : s.eff st = .ok st') : Blames ((VT.leaf s).spots st.lineCount) st st' := by
  cases s with
  | dt d =>
    rw [VT.spots, DateTime.real_eq]
    rw [Scalar.eff] at h
    split at h
    next hv =>
      simp at h; subst h
      rw [if_pos hv]; exact .same rfl
    next hv =>
      rw [Out.bind_ok] at h
      obtain ⟨x, _, h⟩ := h
      simp at h; subst h
      rw [if_neg hv]; exact .one _ rfl rfl (by simp)
  | str x ty => cases ty <;> (simp [Scalar.eff] at h; subst h; exact .same rfl)
  | _ => simp [Scalar.eff] at h; subst h; exact .same rfl

mutual
theorem VT.eff_blames : ∀ (t : VT) {st st' : PState}, t.eff st = .ok st' → Blames (t.spots st.lineCount) st st' ∧ st'.lastArrayType = st.lastArrayType
  | .leaf s, st, st', h => by
    rw [VT.eff, Out.bind_ok] at h
    obtain ⟨st1, h1, h⟩ := h
    simp at h; subst h
    exact ⟨(Scalar.eff_blames h1).congr rfl rfl, (Scalar.eff_clean h1).2.1⟩
  | .arr es c1 c2, st, st', h => by
    rw [VT.eff, Out.bind_ok] at h
    obtain ⟨st1, h1, h⟩ := h
    simp at h; subst h
    obtain ⟨a1, x, a2⟩ := Elems.eff_blames es (st := st.openArr) (p := .none) (L := st.lastArrayType) rfl h1
    refine ⟨a1.congr rfl rfl, ?_⟩
    show st1.lastArrayType.dropLast = _
    rw [a2]; simp
  | .itab kvs ws, st, st', h => by
    rw [VT.eff, Out.bind_ok] at h
    obtain ⟨st1, h1, h⟩ := h
    simp at h; subst h
    obtain ⟨a1, a2⟩ := Pairs.eff_blames kvs h1
    exact ⟨a1.congr rfl rfl, a2⟩
theorem Elems.eff_blames : ∀ (t : Elems) {st st' : PState} {p : ArrayType} {L : List ArrayType}, st.lastArrayType = L ++ [p] → t.eff st = .ok st' →
    Blames (t.spots p st.lineCount) st st' ∧ ∃ x, st'.lastArrayType = L ++ [x]
  | .nil, st, st', p, L, hl, h => by
    simp [Elems.eff] at h; subst h
    exact ⟨.same rfl, _, hl⟩
  | .cons v sep cn r, st, st', p, L, hl, h => by
    rw [Elems.eff, Out.bind_ok] at h
    obtain ⟨st1, h1, h⟩ := h
    rw [Out.bind_ok] at h
    obtain ⟨st2, h2, h⟩ := h
    obtain ⟨a1, a2⟩ := VT.eff_blames v h1
    obtain ⟨b1, b2⟩ := arrayValueAct_blames h1 (a2.trans hl) h2
    obtain ⟨c1, c2⟩ := Elems.eff_blames r b2 h
    refine ⟨?_, c2⟩
    have e1 := VT.eff_line h1
    rw [arrayValueAct_line h2, e1] at c1
    rw [e1] at b1
    rw [Elems.spots]
    have := a1.trans (b1.trans c1)
    rwa [List.append_assoc] at this
theorem Pairs.eff_blames : ∀ (t : Pairs) {st st' : PState}, t.eff st = .ok st' → Blames (t.spots st.lineCount) st st' ∧ st'.lastArrayType = st.lastArrayType
  | .nil, st, st', h => by
    simp [Pairs.eff] at h; subst h
    exact ⟨.same rfl, rfl⟩
  | .cons k s v c1 c2 r, st, st', h => by
    rw [Pairs.eff, Out.bind_ok] at h
    obtain ⟨st1, h1, h⟩ := h
    rw [Out.bind_ok] at h
    obtain ⟨st2, h2, h⟩ := h
    obtain ⟨a1, a2⟩ := VT.eff_blames v h1
    have b1 := keyvalAct_blames (VT.toVal_after h1) h2
    obtain ⟨c1, c2⟩ := Pairs.eff_blames r h
    have e1 := VT.eff_line h1
    rw [keyvalAct_line h2, e1] at c1
    rw [e1] at b1
    refine ⟨?_, c2.trans ((keyvalAct_lat h2).trans a2)⟩
    rw [Pairs.spots]
    exact (a1.congr (a' := st) rfl rfl).trans (b1.trans c1)
end

theorem TableType.eff_blames {t : TableType} {st st' : PState} (hs : t.eff st = .ok st') : Blames [(.header, st.lineCount)] st st' := by
  cases t with
  | std t =>
    rw [TableType.eff, Out.bind_ok] at hs
    obtain ⟨⟨s1, t1⟩, h1, hs⟩ := hs
    simp at hs; subst hs
    simp only [stdTableAct] at h1
    split at h1
    · simp at h1
    · simp only [Out.bind_eq, Out.bind_ok] at h1
      obtain ⟨⟨a, b, c⟩, _, h1⟩ := h1
      dsimp only at h1
      split at h1
      · rw [Out.bind_ok] at h1
        obtain ⟨_, _, h1⟩ := h1
        simp at h1
        obtain ⟨rfl, _⟩ := h1
        exact .one _ rfl rfl (by simp)
      · simp only [Out.bind_ok] at h1
        obtain ⟨_, _, _, _, _, _, h1⟩ := h1
        simp at h1
        obtain ⟨rfl, _⟩ := h1
        exact .skip rfl rfl (by simp)
  | arr t =>
    rw [TableType.eff, Out.bind_ok] at hs
    obtain ⟨⟨s1, t1⟩, h1, hs⟩ := hs
    simp at hs; subst hs
    simp only [arrayTableAct] at h1
    split at h1
    · simp at h1
    · simp only [Out.bind_eq, Out.bind_ok] at h1
      obtain ⟨⟨a, b, c⟩, _, ⟨a', b', c'⟩, _, h1⟩ := h1
      dsimp only at h1
      split at h1
      · simp at h1
        obtain ⟨rfl, _⟩ := h1
        exact .one _ rfl rfl (by simp)
      · simp at h1
        obtain ⟨rfl, _⟩ := h1
        exact .skip rfl rfl (by simp)

theorem ET.eff_blames {e : ET} {st st' : PState} (hs : e.eff st = .ok st') : Blames (e.spots st.lineCount) st st' := by
  cases e with
  | blank w => simp [ET.eff] at hs; subst hs; exact .same rfl
  | comment w c => simp [ET.eff] at hs; subst hs; exact .same rfl
  | kv w1 k s v w2 c =>
    rw [ET.eff, Out.bind_ok] at hs
    obtain ⟨st1, h1, hs⟩ := hs
    have b1 := keyvalAct_blames (VT.toVal_after h1) hs
    rw [VT.eff_line h1] at b1
    exact ((VT.eff_blames v h1).1.congr (a' := st) rfl rfl).trans b1
  | table w1 t w2 c => exact TableType.eff_blames (t := t) hs

theorem linesEff_blames : ∀ {ls : List (Str × ET)} {st st' : PState} {es : List NLExpression}, linesEff ls st = .ok (st', es) → Blames (docSpots st.lineCount ls) st st'
  | [], st, st', es, h => by
    simp [linesEff] at h
    obtain ⟨rfl, _⟩ := h
    exact .same rfl
  | (nl, e) :: ls, st, st', es, h => by
    rw [linesEff, Out.bind_ok] at h
    obtain ⟨st1, h1, h⟩ := h
    obtain ⟨⟨st2, es2⟩, h2, h⟩ := Out.bind_ok.mp h
    simp at h
    obtain ⟨rfl, _⟩ := h
    have a1 := (ET.eff_blames h1).congr (a' := st) rfl rfl
    have a2 := linesEff_blames h2
    rw [ET.eff_line h1] at a2
    exact a1.trans a2

end Tomllib
