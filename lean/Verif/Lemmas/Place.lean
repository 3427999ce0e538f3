import Verif.Lemmas.DocErrs
import Verif.Lemmas.Count
/-!
# On which lines errors are reported
-/

namespace Tomllib

/-! ## The errors added between two states carry lines between those of the states -/

/-- Up to the pairs of invalid tables, errors were only added; the new ones, which satisfy `P`, carry a line between the two line counters. -/
def Adds (P : ParseError → Prop) (st st' : PState) : Prop :=
  (∃ l : List ParseError, st'.errors.map ParseError.lessPairs = st.errors.map ParseError.lessPairs ++ l ∧
    ∀ e ∈ l, P e ∧ st.lineCount ≤ e.line ∧ e.line ≤ st'.lineCount) ∧ st.lineCount ≤ st'.lineCount

theorem Adds.same {P : ParseError → Prop} {st st' : PState} (h : st'.errors = st.errors) (hl : st.lineCount ≤ st'.lineCount) : Adds P st st' :=
  ⟨⟨[], by simp [h], by simp⟩, hl⟩

theorem Adds.trans {P : ParseError → Prop} {a b c : PState} (h : Adds P a b) (h' : Adds P b c) : Adds P a c := by
  obtain ⟨⟨l, h1, h2⟩, h3⟩ := h
  obtain ⟨⟨l', g1, g2⟩, g3⟩ := h'
  refine ⟨⟨l ++ l', by rw [g1, h1, List.append_assoc], ?_⟩, by omega⟩
  intro e he
  rcases List.mem_append.mp he with he | he
  · have := h2 e he; exact ⟨this.1, this.2.1, by omega⟩
  · have := g2 e he; exact ⟨this.1, by omega, this.2.2⟩

theorem Adds.congr {P : ParseError → Prop} {a b a' b' : PState} (h : Adds P a b) (ha : a'.errors = a.errors) (hb : b'.errors = b.errors)
    (la : a'.lineCount = a.lineCount) (lb : b'.lineCount = b.lineCount) : Adds P a' b' := by
  obtain ⟨⟨l, h1, h2⟩, h3⟩ := h
  exact ⟨⟨l, by rw [ha, hb, h1], by rw [la, lb]; exact h2⟩, by omega⟩

theorem Adds.one {P : ParseError → Prop} {st st' : PState} {e : ParseError} (h : st'.errors = st.errors ++ [e]) (he : P e.lessPairs)
    (hl : e.line = st.lineCount) (hs : st'.lineCount = st.lineCount) : Adds P st st' := by
  refine ⟨⟨[e.lessPairs], by simp [h], ?_⟩, by omega⟩
  simp only [List.mem_singleton, forall_eq]
  have : e.lessPairs.line = e.line := by cases e <;> rfl
  exact ⟨he, by omega, by omega⟩

/-- Not about a table. -/
def NoTable (e : ParseError) : Prop := e.table? = none

theorem insertKeyval_adds {st st' : PState} {a : Addr} (hs : insertKeyval st a = .ok st') : Adds NoTable st st' := by
  have hl := insertKeyval_line hs
  simp only [insertKeyval, Out.bind_eq, Out.bind_ok] at hs
  obtain ⟨⟨x, y⟩, _, hs⟩ := hs
  dsimp only at hs
  split at hs
  · rw [Out.bind_ok] at hs
    obtain ⟨v, _, hs⟩ := hs
    simp at hs; subst hs; exact .one rfl rfl rfl rfl
  · split at hs
    · simp at hs
    · simp at hs; subst hs; exact .same rfl (Nat.le_refl _)

theorem keyvalAct_adds {k : Str} {st st' : PState} {a : Addr} (hs : keyvalAct k a st = .ok st') : Adds NoTable st st' := by
  simp only [keyvalAct, Out.bind_eq, Out.bind_ok] at hs
  obtain ⟨st1, h1, hs⟩ := hs
  simp at hs; subst hs
  refine Adds.congr (a := st) (b := st1) ?_ rfl rfl rfl rfl
  split at h1
  · split at h1
    · simp at h1
    next key line col m he =>
      rw [Out.bind_ok] at h1
      obtain ⟨v, _, h1⟩ := h1
      simp at h1; subst h1
      refine ⟨⟨[], ?_, by simp⟩, Nat.le_refl _⟩
      have hd : st.errors = st.errors.dropLast ++ [.invalidTable key line col m] := by
        obtain ⟨ys, hy⟩ := List.getLast?_eq_some_iff.mp he
        rw [hy]; simp
      conv => rhs; rw [hd]
      simp [ParseError.lessPairs]
    · simp at h1; subst h1; exact .same rfl (Nat.le_refl _)
  · exact insertKeyval_adds h1

theorem checkMixed_adds {t : ArrayType} {st st' : PState} (hs : checkMixed t st = .ok st') : Adds NoTable st st' := by
  unfold checkMixed at hs
  split at hs
  · simp at hs; subst hs; exact .same rfl (Nat.le_refl _)
  · split at hs
    · simp at hs; subst hs; exact .same rfl (Nat.le_refl _)
    · split at hs
      · simp at hs
      · simp at hs
      · dsimp only at hs
        have key : ∀ (b : Bool) (k : Str), (if b = true then Out.ok { st with errors := st.errors ++ [.mixedArray k st.lineCount 0] } else Out.ok st) = .ok st' →
            Adds NoTable st st' := by
          intro b e hs
          cases b <;> simp at hs <;> subst hs
          · exact .same rfl (Nat.le_refl _)
          · exact .one rfl rfl rfl rfl
        exact key _ _ hs

theorem arrayValueAct_adds {st st' : PState} {a : Addr} (hs : arrayValueAct a st = .ok st') : Adds NoTable st st' := by
  simp only [arrayValueAct, Out.bind_eq, Out.bind_ok] at hs
  obtain ⟨v, _, t, _, st1, h1, st2, h2, hs⟩ := hs
  have b1 := checkMixed_adds h1
  have b2 := insertKeyval_adds h2
  split at hs
  · simp at hs
  · simp at hs; subst hs; exact b1.trans (b2.congr rfl rfl rfl rfl)

theorem Scalar.eff_adds {s : Scalar} {st st' : PState} (hs : s.eff st = .ok st') : Adds NoTable st st' := by
  have hl := Scalar.eff_line hs
  cases s with
  | dt d =>
    rw [Scalar.eff] at hs
    split at hs
    · simp at hs; subst hs; exact .same rfl (Nat.le_refl _)
    · rw [Out.bind_ok] at hs
      obtain ⟨x, _, hs⟩ := hs
      simp at hs; subst hs; exact .one rfl rfl rfl rfl
  | str x ty => cases ty <;> simp [Scalar.eff] at hs <;> subst hs <;> exact .same rfl (by omega)
  | _ => simp [Scalar.eff] at hs; subst hs; exact .same rfl (Nat.le_refl _)

mutual
theorem VT.eff_adds : ∀ {t : VT} {st st' : PState}, t.eff st = .ok st' → Adds NoTable st st'
  | .leaf s, st, st', hs => by
    rw [VT.eff, Out.bind_ok] at hs
    obtain ⟨st1, h1, hs⟩ := hs
    simp at hs; subst hs
    exact (Scalar.eff_adds h1).congr rfl rfl rfl rfl
  | .arr es c1 c2, st, st', hs => by
    rw [VT.eff, Out.bind_ok] at hs
    obtain ⟨st1, h1, hs⟩ := hs
    simp at hs; subst hs
    exact (Elems.eff_adds h1).congr rfl rfl rfl rfl
  | .itab kvs ws, st, st', hs => by
    rw [VT.eff, Out.bind_ok] at hs
    obtain ⟨st1, h1, hs⟩ := hs
    simp at hs; subst hs
    exact (Pairs.eff_adds h1).congr rfl rfl rfl rfl
theorem Elems.eff_adds : ∀ {t : Elems} {st st' : PState}, t.eff st = .ok st' → Adds NoTable st st'
  | .nil, st, st', hs => by simp [Elems.eff] at hs; subst hs; exact .same rfl (Nat.le_refl _)
  | .cons v sep cn r, st, st', hs => by
    rw [Elems.eff, Out.bind_ok] at hs
    obtain ⟨st1, h1, hs⟩ := hs
    rw [Out.bind_ok] at hs
    obtain ⟨st2, h2, hs⟩ := hs
    exact ((VT.eff_adds h1).trans (arrayValueAct_adds h2)).trans (Elems.eff_adds hs)
theorem Pairs.eff_adds : ∀ {t : Pairs} {st st' : PState}, t.eff st = .ok st' → Adds NoTable st st'
  | .nil, st, st', hs => by simp [Pairs.eff] at hs; subst hs; exact .same rfl (Nat.le_refl _)
  | .cons k ws v sep cn r, st, st', hs => by
    rw [Pairs.eff, Out.bind_ok] at hs
    obtain ⟨st1, h1, hs⟩ := hs
    rw [Out.bind_ok] at hs
    obtain ⟨st2, h2, hs⟩ := hs
    have := (VT.eff_adds h1).congr (a' := st) (b' := st1) rfl rfl rfl rfl
    exact (this.trans (keyvalAct_adds h2)).trans (Pairs.eff_adds hs)
end

/-- A table header adds at most one error, about that table. -/
theorem TableType.eff_adds {t : TableType} {st st' : PState} (hs : t.eff st = .ok st') :
    Adds (fun e => e.table? ≠ none) st st' := by
  cases t with
  | std t =>
    rw [TableType.eff, Out.bind_ok] at hs
    obtain ⟨⟨s1, t1⟩, h1, hs⟩ := hs
    simp at hs; subst hs
    simp only [stdTableAct] at h1
    split at h1
    · simp at h1
    · simp only [Out.bind_eq, Out.bind_ok] at h1
      obtain ⟨⟨a, b, c⟩, _, h1⟩ := h1
      dsimp only at h1
      split at h1
      · rw [Out.bind_ok] at h1
        obtain ⟨_, _, h1⟩ := h1
        simp at h1
        obtain ⟨rfl, _⟩ := h1
        exact .one rfl (by simp [ParseError.lessPairs, ParseError.table?]) rfl rfl
      · simp only [Out.bind_ok] at h1
        obtain ⟨_, _, _, _, _, _, h1⟩ := h1
        simp at h1
        obtain ⟨rfl, _⟩ := h1
        exact .same rfl (Nat.le_refl _)
  | arr t =>
    rw [TableType.eff, Out.bind_ok] at hs
    obtain ⟨⟨s1, t1⟩, h1, hs⟩ := hs
    simp at hs; subst hs
    simp only [arrayTableAct] at h1
    split at h1
    · simp at h1
    · simp only [Out.bind_eq, Out.bind_ok] at h1
      obtain ⟨⟨a, b, c⟩, _, ⟨a', b', c'⟩, _, h1⟩ := h1
      dsimp only at h1
      split at h1
      · simp at h1
        obtain ⟨rfl, _⟩ := h1
        exact .one rfl (by simp [ParseError.lessPairs, ParseError.table?]) rfl rfl
      · simp at h1
        obtain ⟨rfl, _⟩ := h1
        exact .same rfl (Nat.le_refl _)

theorem ET.eff_adds {e : ET} {st st' : PState} (hs : e.eff st = .ok st') : Adds e.mayCause st st' := by
  cases e with
  | blank w => simp [ET.eff] at hs; subst hs; exact .same rfl (Nat.le_refl _)
  | comment w c => simp [ET.eff] at hs; subst hs; exact .same rfl (Nat.le_refl _)
  | kv w1 k s v w2 c =>
    rw [ET.eff, Out.bind_ok] at hs
    obtain ⟨st1, h1, hs⟩ := hs
    have := (VT.eff_adds h1).congr (a' := st) (b' := st1) rfl rfl rfl rfl
    exact this.trans (keyvalAct_adds hs)
  | table w1 t w2 c => exact TableType.eff_adds (t := t) hs

/-! ## Line feeds are counted only in strings with three quotes -/

theorem TripleQuotes.mono {s t : Str} (h : TripleQuotes s) (hi : s <:+: t) : TripleQuotes t :=
  h.imp (fun h => h.trans hi) (fun h => h.trans hi)

theorem Scalar.counted_triple {s : Scalar} (h : s.counted ≠ 0) : TripleQuotes s.text := by
  cases s with
  | str x ty =>
    cases ty with
    | mlBasic => exact .inl ⟨[], x ++ lit% "\"\"\"", rfl⟩
    | mlLiteral => exact .inr ⟨[], x ++ lit% "'''", rfl⟩
    | _ => simp [Scalar.counted] at h
  | _ => simp [Scalar.counted] at h

mutual
theorem VT.counted_triple : ∀ {t : VT}, t.counted ≠ 0 → TripleQuotes t.text
  | .leaf s, h => Scalar.counted_triple h
  | .arr es c1 c2, h => by
    refine (Elems.counted_triple (t := es) h).mono ?_
    simp only [VT.text, List.append_assoc]
    exact ⟨lit% "[" ++ gapText c1, gapText c2 ++ lit% "]", by simp⟩
  | .itab kvs ws, h => by
    refine (Pairs.counted_triple (t := kvs) h).mono ?_
    simp only [VT.text, List.append_assoc]
    exact ⟨lit% "{" ++ ws.ws1, ws.ws2 ++ lit% "}", by simp⟩
theorem Elems.counted_triple : ∀ {t : Elems}, t.counted ≠ 0 → TripleQuotes t.text
  | .nil, h => by simp [Elems.counted] at h
  | .cons v sep cn r, h => by
    rw [Elems.counted] at h
    by_cases hv : v.counted = 0
    · refine (Elems.counted_triple (t := r) (by omega)).mono ?_
      rw [Elems.text]; exact (List.suffix_append _ _).isInfix
    · refine (VT.counted_triple hv).mono ?_
      simp only [Elems.text, List.append_assoc]
      exact (List.prefix_append _ _).isInfix
theorem Pairs.counted_triple : ∀ {t : Pairs}, t.counted ≠ 0 → TripleQuotes t.text
  | .nil, h => by simp [Pairs.counted] at h
  | .cons k ws v sep cn r, h => by
    rw [Pairs.counted] at h
    by_cases hv : v.counted = 0
    · refine (Pairs.counted_triple (t := r) (by omega)).mono ?_
      rw [Pairs.text]; exact (List.suffix_append _ _).isInfix
    · refine (VT.counted_triple hv).mono ?_
      simp only [Pairs.text, List.append_assoc]
      exact ⟨k ++ (ws.ws1 ++ (lit% "=" ++ ws.ws2)), commaText sep ++ (gapText cn ++ r.text), by simp⟩
end

theorem PV.eff_line' : ∀ {t : PV} {st st' : PState}, t.eff st = .ok st' → st.lineCount ≤ st'.lineCount ∧ (st'.lineCount ≠ st.lineCount → TripleQuotes t.text)
  | .nothing, st, st', h => by simp [PV.eff] at h; subst h; simp
  | .val t, st, st', h => by
    have := VT.eff_line h
    exact ⟨by omega, fun hn => VT.counted_triple (by omega)⟩
  | .arr c1 es last, st, st', h => by
    simp only [PV.eff, Out.bind_ok] at h
    obtain ⟨s1, h1, s2, h2, h⟩ := h
    simp at h; subst h
    have a1 := Elems.eff_line h1
    have a3 := PV.eff_line' h2
    simp only [PState.closeArr, PState.openArr] at *
    refine ⟨by omega, fun hn => ?_⟩
    by_cases he : es.counted = 0
    · refine (a3.2 (by omega)).mono ?_
      rw [PV.text]; exact (List.suffix_append _ _).isInfix
    · refine (Elems.counted_triple he).mono ?_
      exact ⟨lit% "[" ++ gapText c1, last.text, rfl⟩
  | .itab w kvs, st, st', h => by
    have := Pairs.eff_line h
    refine ⟨by omega, fun hn => (Pairs.counted_triple (t := kvs) (by omega)).mono ?_⟩
    rw [PV.text]; exact (List.suffix_append _ _).isInfix
  | .itabK w kvs k, st, st', h => by
    simp only [PV.eff, Out.bind_ok] at h
    obtain ⟨s1, h1, h⟩ := h
    simp at h; subst h
    have a1 := Pairs.eff_line h1
    simp only [PState.pushK] at *
    refine ⟨by omega, fun hn => (Pairs.counted_triple (t := kvs) (by omega)).mono ?_⟩
    exact ⟨lit% "{" ++ w, k, rfl⟩
  | .itabKV w kvs k ws last, st, st', h => by
    simp only [PV.eff, Out.bind_ok] at h
    obtain ⟨s1, h1, h⟩ := h
    have a1 := Pairs.eff_line h1
    have a3 := PV.eff_line' h
    simp only [PState.pushK] at *
    refine ⟨by omega, fun hn => ?_⟩
    by_cases he : kvs.counted = 0
    · refine (a3.2 (by omega)).mono ?_
      rw [PV.text]; exact (List.suffix_append _ _).isInfix
    · refine (Pairs.counted_triple he).mono ?_
      refine ⟨lit% "{" ++ w, k ++ ws.ws1 ++ lit% "=" ++ ws.ws2 ++ last.text, ?_⟩
      simp [PV.text]

theorem PX.eff_line' {t : PX} {st st' : PState} (h : t.eff st = .ok st') :
    st.lineCount ≤ st'.lineCount ∧ (st'.lineCount ≠ st.lineCount → TripleQuotes t.text) := by
  cases t with
  | nothing => simp [PX.eff] at h; subst h; simp
  | header txt ks => simp [PX.eff] at h; subst h; simp [PState.pushKs]
  | key k => simp [PX.eff] at h; subst h; simp [PState.pushK]
  | kv k sep last =>
    have := PV.eff_line' h
    simp only [PState.pushK] at *
    refine ⟨this.1, fun hn => (this.2 hn).mono ?_⟩
    rw [PX.text]; exact (List.suffix_append _ _).isInfix
  | pair k sep v =>
    rw [PX.eff, Out.bind_ok] at h
    obtain ⟨st1, h1, h⟩ := h
    have a1 := keyvalAct_line h
    have a2 := VT.eff_line h1
    simp only [PState.pushK] at *
    refine ⟨by omega, fun hn => (VT.counted_triple (t := v) (by omega)).mono ?_⟩
    rw [PX.text]; exact (List.suffix_append _ _).isInfix
  | table t =>
    have := TableType.eff_line h
    exact ⟨by omega, fun hn => absurd this hn⟩

/-! ## One more line -/

theorem linesEff_snoc : ∀ (ls : List (Str × ET)) (nl : Str) (e : ET) (st : PState),
    (linesEff (ls ++ [(nl, e)]) st).map' (·.1) = (linesEff ls st).bind fun x => e.eff (x.1.lines (nlCount nl))
  | [], nl, e, st => by
    simp only [List.nil_append, linesEff, Out.bind]
    cases e.eff (st.lines (nlCount nl)) <;> rfl
  | (nl', e') :: ls, nl, e, st => by
    simp only [List.cons_append, linesEff]
    cases h : e'.eff (st.lines (nlCount nl')) with
    | ok st1 =>
      have ih := linesEff_snoc ls nl e st1
      simp only [Out.bind]
      revert ih
      cases linesEff (ls ++ [(nl, e)]) st1 <;> cases linesEff ls st1 <;> simp [Out.bind, Out.map']
    | panic x => rfl
    | fuel => rfl

end Tomllib
