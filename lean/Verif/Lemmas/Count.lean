import Verif.Lemmas.Parse
/-!
# Line numbers
-/

namespace Tomllib

theorem nls_append (s t : Str) : nls (s ++ t) = nls s + nls t := List.count_append

theorem nls_zero {s : Str} (h : ∀ c ∈ s, c ≠ '\n') : nls s = 0 := List.count_eq_zero.mpr fun hm => h _ hm rfl

theorem lang_fullLine {m : Str} (h : Lang Rx.fullLine m) : nls m = 1 := by
  obtain ⟨u, v, rfl, hu, hv⟩ := lang_seq h
  have h0 : nls u = 0 := by
    refine lang_star hu (Q := fun s => nls s = 0) rfl ?_
    intro s t _ hs _ ht
    obtain ⟨c, rfl, hc⟩ := lang_cls hs
    rw [nls_append, ht]
    refine nls_zero (s := [c]) ?_
    simp only [List.mem_singleton]
    rintro _ rfl rfl
    revert hc; decide
  rw [nls_append, h0]
  rcases lang_alt hv with hv | hv
  · rw [lang_ch hv]; rfl
  · rw [lang_lit hv]; rfl

theorem fullLine_none {s : Str} (h : Rx.fullLine.find s = none) : nls s = 0 := by
  refine nls_zero ?_
  intro c hc e
  subst e
  have hs : ∃ u v, s = u ++ '\n' :: v ∧ ∀ c ∈ u, c ≠ '\n' := by
    clear h
    induction s with
    | nil => simp at hc
    | cons a s ih =>
      by_cases ha : a = '\n'
      · exact ⟨[], s, by simp [ha], by simp⟩
      · obtain ⟨u, v, rfl, h2⟩ := ih (by simpa [Ne.symm ha] using hc)
        exact ⟨a :: u, v, rfl, by simpa [ha] using h2⟩
  obtain ⟨u, v, rfl, hu⟩ := hs
  have hl : Lang Rx.fullLine (u ++ ['\n']) := by
    refine .seq ?_ (.altl (.cls rfl))
    clear h hc
    induction u with
    | nil => exact .nil
    | cons a u ih =>
      refine Lang.cons (s := [a]) (by simp) (.cls ?_) (ih fun c hc => hu c (by simp [hc]))
      have ha := hu a (by simp)
      have h1 : a.toNat ≠ 10 := fun e => ha (char_eq_of_toNat (d := '\n') e)
      have h2 : a.toNat ≤ 0x10FFFF := by
        rcases a.valid with h | h
        · have : a.toNat < 0xD800 := h
          omega
        · have : a.toNat < 0x110000 := h.2
          omega
      simp [inCls]
      omega
  unfold Re.find at h
  split at h
  next hn =>
    have := Re.run_none _ _ _ hn (u ++ ['\n']) v (by simp) hl
    simp at this
  · simp at h

theorem find_split {r : Re} {s m rest : Str} (h : r.find s = some (m, rest)) : s = m ++ rest ∧ Lang r m := by
  unfold Re.find at h
  split at h
  · simp at h
  next t ht =>
    simp at h
    obtain ⟨rfl, rfl⟩ := h
    obtain ⟨m, t', rfl, hm, e⟩ := Re.run_some _ _ _ _ ht
    simp at e; subst e
    simp [hm]

theorem fullLines_eq : ∀ (n : Nat) (s : Str), s.length < n → fullLines n s = nls s
  | 0, s, h => by omega
  | n + 1, s, h => by
    unfold fullLines
    split
    next e => subst e; rfl
    · split
      next m rest e =>
        obtain ⟨rfl, hm⟩ := find_split e
        have h1 := lang_fullLine hm
        have hpos : 0 < m.length := by
          cases m with
          | nil => simp [nls] at h1
          | cons => simp
        rw [fullLines_eq n rest (by simp at h; omega), nls_append, h1]
      next e => exact (fullLine_none e).symm

/-- The line counter counts line feeds. -/
theorem countLines_eq (s : Str) : countLines s = nls s := fullLines_eq _ s (by omega)

theorem Scalar.counted_le (s : Scalar) : s.counted ≤ nls s.text := by
  cases s with
  | str s t => cases t <;> simp [Scalar.counted, Scalar.text, StrType.quoted, nls]
  | _ => simp [Scalar.counted]

mutual
theorem VT.counted_le : ∀ t : VT, t.counted ≤ nls t.text
  | .leaf s => s.counted_le
  | .arr es c1 c2 => by
    have := Elems.counted_le es
    simp only [VT.counted, VT.text, nls_append]; omega
  | .itab es ws => by
    have := Pairs.counted_le es
    simp only [VT.counted, VT.text, nls_append]; omega
theorem Elems.counted_le : ∀ t : Elems, t.counted ≤ nls t.text
  | .nil => by simp [Elems.counted]
  | .cons v sep cn r => by
    have := VT.counted_le v
    have := Elems.counted_le r
    simp only [Elems.counted, Elems.text, nls_append]; omega
theorem Pairs.counted_le : ∀ t : Pairs, t.counted ≤ nls t.text
  | .nil => by simp [Pairs.counted]
  | .cons k ws v sep cn r => by
    have := VT.counted_le v
    have := Pairs.counted_le r
    simp only [Pairs.counted, Pairs.text, nls_append]; omega
end

theorem insertKeyval_line {st st' : PState} {a : Addr} (h : insertKeyval st a = .ok st') : st'.lineCount = st.lineCount := by
  simp only [insertKeyval, Out.bind_eq, Out.bind_ok] at h
  obtain ⟨⟨full, parent⟩, _, h⟩ := h
  split at h
  · rw [Out.bind_ok] at h
    obtain ⟨v, _, h⟩ := h
    simp at h; subst h; rfl
  · split at h
    · simp at h
    · simp at h; subst h; rfl

theorem checkMixed_line {t : ArrayType} {st st' : PState} (h : checkMixed t st = .ok st') : st'.lineCount = st.lineCount := by
  unfold checkMixed at h
  split at h
  · simp at h; subst h; rfl
  · split at h
    · simp at h; subst h; rfl
    · split at h
      · simp at h
      · simp at h
      · dsimp only at h
        rcases Out.ite_ok h with rfl | rfl <;> rfl

theorem arrayValueAct_line {a : Addr} {st st' : PState} (h : arrayValueAct a st = .ok st') : st'.lineCount = st.lineCount := by
  simp only [arrayValueAct, Out.bind_eq, Out.bind_ok] at h
  obtain ⟨v, _, t, _, st1, h1, st2, h2, h⟩ := h
  split at h
  · simp at h
  · simp at h; subst h
    have := insertKeyval_line h2
    have := checkMixed_line h1
    simp_all

theorem keyvalAct_line {k : Str} {a : Addr} {st st' : PState} (h : keyvalAct k a st = .ok st') : st'.lineCount = st.lineCount := by
  simp only [keyvalAct, Out.bind_eq, Out.bind_ok] at h
  obtain ⟨st1, h1, h⟩ := h
  simp at h; subst h
  split at h1
  · split at h1
    · simp at h1
    · rw [Out.bind_ok] at h1
      obtain ⟨v, _, h1⟩ := h1
      simp at h1; subst h1; rfl
    · simp at h1; subst h1; rfl
  · have := insertKeyval_line h1
    simpa using this

theorem Scalar.eff_line {s : Scalar} {st st' : PState} (h : s.eff st = .ok st') : st'.lineCount = st.lineCount + s.counted := by
  unfold Scalar.eff at h
  split at h
  · split at h
    · simp at h; subst h; rfl
    · rw [Out.bind_ok] at h
      obtain ⟨x, _, h⟩ := h
      simp at h; subst h; rfl
  · simp at h; subst h
    simp [PState.lines, countLines_eq, StrType.quoted, nls, Scalar.counted]
  · simp at h; subst h
    simp [PState.lines, countLines_eq, StrType.quoted, nls, Scalar.counted]
  next h1 h2 h3 =>
    simp at h; subst h
    unfold Scalar.counted
    split <;> simp_all

mutual
theorem VT.eff_line : ∀ {t : VT} {st st' : PState}, t.eff st = .ok st' → st'.lineCount = st.lineCount + t.counted
  | .leaf s, st, st', h => by
    rw [VT.eff, Out.bind_ok] at h
    obtain ⟨st1, h1, h⟩ := h
    simp at h; subst h
    exact (Scalar.eff_line h1 :)
  | .arr es c1 c2, st, st', h => by
    rw [VT.eff, Out.bind_ok] at h
    obtain ⟨st1, h1, h⟩ := h
    simp at h; subst h
    exact (Elems.eff_line h1 :)
  | .itab kvs ws, st, st', h => by
    rw [VT.eff, Out.bind_ok] at h
    obtain ⟨st1, h1, h⟩ := h
    simp at h; subst h
    exact (Pairs.eff_line h1 :)
theorem Elems.eff_line : ∀ {t : Elems} {st st' : PState}, t.eff st = .ok st' → st'.lineCount = st.lineCount + t.counted
  | .nil, st, st', h => by simp [Elems.eff] at h; subst h; rfl
  | .cons v sep cn r, st, st', h => by
    rw [Elems.eff, Out.bind_ok] at h
    obtain ⟨st1, h1, h⟩ := h
    rw [Out.bind_ok] at h
    obtain ⟨st2, h2, h⟩ := h
    rw [Elems.eff_line h, arrayValueAct_line h2, VT.eff_line h1, Elems.counted]; omega
theorem Pairs.eff_line : ∀ {t : Pairs} {st st' : PState}, t.eff st = .ok st' → st'.lineCount = st.lineCount + t.counted
  | .nil, st, st', h => by simp [Pairs.eff] at h; subst h; rfl
  | .cons k ws v sep cn r, st, st', h => by
    rw [Pairs.eff, Out.bind_ok] at h
    obtain ⟨st1, h1, h⟩ := h
    rw [Out.bind_ok] at h
    obtain ⟨st2, h2, h⟩ := h
    rw [Pairs.eff_line h, keyvalAct_line h2, VT.eff_line h1, Pairs.counted]; simp [PState.pushK]; omega
end

theorem ET.counted_le (e : ET) : e.counted ≤ nls e.text := by
  cases e with
  | kv w1 k s v w2 c =>
    have := v.counted_le
    simp only [ET.counted, ET.text, nls_append]; omega
  | _ => simp [ET.counted]

theorem TableType.eff_line {t : TableType} {st st' : PState} (h : t.eff st = .ok st') : st'.lineCount = st.lineCount := by
  cases t with
  | std t =>
    simp only [TableType.eff, Out.bind_ok] at h
    obtain ⟨⟨s, tt⟩, h, e⟩ := h
    simp at e; subst e
    simp only [stdTableAct, Out.bind_eq] at h
    split at h
    · simp at h
    · rw [Out.bind_ok] at h
      obtain ⟨x, _, h⟩ := h
      split at h
      · rw [Out.bind_ok] at h
        obtain ⟨y, _, h⟩ := h
        simp at h; obtain ⟨rfl, _⟩ := h; rfl
      · simp only [Out.bind_ok] at h
        obtain ⟨_, _, _, _, _, _, h⟩ := h
        simp at h; obtain ⟨rfl, _⟩ := h; rfl
  | arr t =>
    simp only [TableType.eff, Out.bind_ok] at h
    obtain ⟨⟨s, tt⟩, h, e⟩ := h
    simp at e; subst e
    simp only [arrayTableAct, Out.bind_eq] at h
    split at h
    · simp at h
    · simp only [Out.bind_ok] at h
      obtain ⟨x, _, y, _, h⟩ := h
      split at h <;> (simp at h; obtain ⟨rfl, _⟩ := h; rfl)

theorem ET.eff_line {e : ET} {st st' : PState} (h : e.eff st = .ok st') : st'.lineCount = st.lineCount + e.counted := by
  cases e with
  | blank w => simp [ET.eff] at h; subst h; rfl
  | comment w c => simp [ET.eff] at h; subst h; rfl
  | kv w1 k s v w2 c =>
    rw [ET.eff, Out.bind_ok] at h
    obtain ⟨st1, h1, h⟩ := h
    rw [keyvalAct_line h, VT.eff_line h1]; rfl
  | table w1 t w2 c => exact TableType.eff_line h

theorem linesEff_line : ∀ {ls : List (Str × ET)} {st st' : PState} {ns : List NLExpression}, linesEff ls st = .ok (st', ns) →
    st'.lineCount = st.lineCount + linesCounted ls
  | [], st, st', ns, h => by simp [linesEff] at h; obtain ⟨rfl, _⟩ := h; rfl
  | (nl, e) :: es, st, st', ns, h => by
    rw [linesEff, Out.bind_ok] at h
    obtain ⟨st1, h1, h⟩ := h
    rw [Out.bind_ok] at h
    obtain ⟨⟨s, n⟩, h2, h⟩ := h
    simp at h
    obtain ⟨rfl, _⟩ := h
    rw [linesEff_line h2, ET.eff_line h1, linesCounted]
    simp [PState.lines]; omega

theorem LinesWf.counted_le : ∀ {ls : List (Str × ET)}, LinesWf ls → linesCounted ls ≤ nls (linesText ls)
  | [], _ => by simp [linesCounted]
  | (nl, e) :: es, h => by
    have h1 := LinesWf.counted_le (ls := es) fun l hl => h l (by simp [hl])
    have h2 := e.counted_le
    have h3 : nlCount nl = nls nl := by
      rcases (h (nl, e) (by simp)).1 with e | e <;> (dsimp only at e; subst e; rfl)
    simp only [linesCounted, linesText, nls_append]; omega

theorem DocWf.counted_le {ls : List (Str × ET)} (h : DocWf ls) : linesCounted ls ≤ nls (linesText ls) := by
  cases ls with
  | nil => exact h.elim
  | cons l ls =>
    obtain ⟨nl, e⟩ := l
    obtain ⟨h1, h2, h3⟩ := h
    dsimp only at h1
    subst h1
    have := LinesWf.counted_le h3
    have := e.counted_le
    simp only [linesCounted, linesText, nls_append, nlCount, if_true]; omega

theorem PV.eff_line : ∀ {t : PV} {st st' : PState}, t.eff st = .ok st' → st'.lineCount ≤ st.lineCount + nls t.text
  | .nothing, st, st', h => by simp [PV.eff] at h; subst h; simp
  | .val t, st, st', h => by
    have := VT.eff_line h
    have := t.counted_le
    simp only [PV.text]; omega
  | .arr c1 es last, st, st', h => by
    simp only [PV.eff, Out.bind_ok] at h
    obtain ⟨s1, h1, s2, h2, h⟩ := h
    simp at h; subst h
    have a1 := Elems.eff_line h1
    have a2 := es.counted_le
    have a3 := PV.eff_line h2
    simp only [PV.text, nls_append, PState.closeArr, PState.openArr] at *; omega
  | .itab w kvs, st, st', h => by
    have := Pairs.eff_line h
    have := kvs.counted_le
    simp only [PV.text, nls_append]; omega
  | .itabK w kvs k, st, st', h => by
    simp only [PV.eff, Out.bind_ok] at h
    obtain ⟨s1, h1, h⟩ := h
    simp at h; subst h
    have a1 := Pairs.eff_line h1
    have := kvs.counted_le
    simp only [PV.text, nls_append, PState.pushK] at *; omega
  | .itabKV w kvs k ws last, st, st', h => by
    simp only [PV.eff, Out.bind_ok] at h
    obtain ⟨s1, h1, h⟩ := h
    have a1 := Pairs.eff_line h1
    have := kvs.counted_le
    have a3 := PV.eff_line h
    simp only [PV.text, nls_append, PState.pushK] at *; omega

theorem PX.eff_line {t : PX} {st st' : PState} (h : t.eff st = .ok st') : st'.lineCount ≤ st.lineCount + nls t.text := by
  cases t with
  | nothing => simp [PX.eff] at h; subst h; simp
  | header txt ks => simp [PX.eff] at h; subst h; simp [PState.pushKs]
  | key k => simp [PX.eff] at h; subst h; simp [PState.pushK]
  | kv k sep last =>
    have := PV.eff_line h
    simp only [PX.text, nls_append, PState.pushK] at *; omega
  | pair k sep v =>
    rw [PX.eff, Out.bind_ok] at h
    obtain ⟨st1, h1, h⟩ := h
    have a1 := keyvalAct_line h
    have a2 := VT.eff_line h1
    have := v.counted_le
    simp only [PX.text, nls_append, PState.pushK] at *; omega
  | table t =>
    have := TableType.eff_line h
    omega

/-- After a parse the line counter has grown by at most the number of line feeds of the text. -/
theorem Parsed.line_le {p p' : Parser} {i : Str} {r : ParseResult} {ls : List (Str × ET)} {px : PX} {st1 : PState} (h : Parsed p i p' r ls px st1) :
    p'.st.lineCount ≤ p.st.lineCount + nls i := by
  have h1 := linesEff_line h.eff
  have h2 := PX.eff_line h.pxeff
  have h3 := h.wf.counted_le
  obtain ⟨r', h4⟩ := h.pxtext
  rw [h.text, h4, nls_append, nls_append]; omega

end Tomllib
