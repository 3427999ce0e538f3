import Verif.Lemmas.Read
import Verif.Props.Doc
import Verif.Props.Values
import Verif.Lemmas.ForRead
/-!
# Documents given by their lines: C23, C35, C40, C43, C70

Here the lines are given first and the text is made of them, so the theorems say that the parser reads the text and what it takes it to mean.  The lines are
properly written (`DocStrict ls`, Spec/Strict.lean), or more generally they are those taken from some text (`DocTaken ls`, Spec/Taken.lean); by `C70_read` every
text that is read to the end is of this kind.
-/

namespace Tomllib

/-! ## C43, C70 -/

/-- C70. A text all of whose lines are taken (Spec/Taken.lean) is read to its end: unless it panics, `parse` returns `Full` or `FullError` and leaves
nothing over. -/
theorem C70_taken {ls : List (Str × ET)} (h : DocTaken ls) :
    (∃ p r, Parser.new.parse (linesText ls) = .ok (p, r) ∧ r.whole ∧ p.leftover = []) ∨ ∃ x, Parser.new.parse (linesText ls) = .panic x := by
  have ha := parse_all (p := Parser.new) Reachable.new.inv (linesText ls)
  cases hp : Parser.new.parse (linesText ls) with
  | fuel => rw [hp] at ha; exact ha.elim
  | panic x => exact .inr ⟨x, rfl⟩
  | ok x =>
    obtain ⟨p, r⟩ := x
    refine .inl ⟨p, r, rfl, ?_, (h.parsed hp).2⟩
    have := (h.parsed hp).1.res
    rw [resultOf, if_neg (by simp [(h.parsed hp).2])] at this
    rw [this]
    split
    · exact .inr ⟨_, rfl⟩
    · exact .inl rfl

/-- C43. A properly written document is read to its end: unless it panics, `parse` returns `Full` or `FullError` and leaves nothing over. -/
theorem C43_read_to_the_end {ls : List (Str × ET)} (h : DocStrict ls) :
    (∃ p r, Parser.new.parse (linesText ls) = .ok (p, r) ∧ r.whole ∧ p.leftover = []) ∨ ∃ x, Parser.new.parse (linesText ls) = .panic x :=
  C70_taken h.taken

/-- C70. What C43 says of the meaning of properly written documents holds for every text all of whose lines are taken, and so (`C70_read`) for every text
that is read to its end. -/
theorem C70_meaning {ls : List (Str × ET)} (h : DocTaken ls) (hn : hasArrayTable ls = false) (hh : HeadersOk [] [] ls) :
    ∃ p r, Parser.new.parse (linesText ls) = .ok (p, r) ∧ r.whole ∧ (∀ k, p.getValue k = readEntry (lookup k (docEntries [] ls))) ∧
      r.errs.filterMap ParseError.dup? = repeats [] (docEntries [] ls) ∧ r.errs.filterMap ParseError.date? = (docEntries [] ls).filterMap badDate ∧
      (r = .full ↔ repeats [] (docEntries [] ls) = [] ∧ (docEntries [] ls).filterMap badDate = [] ∧ ∀ e ∈ docEntries [] ls, isMixed e.2 = false) := by
  obtain ⟨st, ns, T, F, r1, -⟩ := DocInv.linesOk ls DocInv.new h.wf.lines hn hh
  rcases C70_taken h with ⟨p, r, hp, hr, hl⟩ | ⟨x, hx⟩
  · refine ⟨p, r, hp, hr, ?_⟩
    have hP := (h.parsed hp).1
    have hR := hP.reading hl hn
    obtain ⟨T, F, _, _, l, e1, e2, e3, _⟩ := hR.ok hh
    refine ⟨fun k => hR.getValue hh k, ?_, ?_, ?_⟩
    · rw [(hP.whole hr).2, e1]; simpa using e2
    · rw [(hP.whole hr).2, e1]; simpa using e3
    · rw [hP.full_iff hl hn]
      simp [hh]
  · rw [parse_fwd h, r1] at hx
    simp [Out.bind] at hx

/-- C43. A properly written document whose table headers are in order is read to its end without a panic; every key then stands for the first of its
entries; repeated keys and impossible dates are reported, in the order of the text; and nothing is reported exactly when there are none of these and no
array has elements of different kinds. -/
theorem C43_meaning {ls : List (Str × ET)} (h : DocStrict ls) (hn : hasArrayTable ls = false) (hh : HeadersOk [] [] ls) :
    ∃ p r, Parser.new.parse (linesText ls) = .ok (p, r) ∧ r.whole ∧ (∀ k, p.getValue k = readEntry (lookup k (docEntries [] ls))) ∧
      r.errs.filterMap ParseError.dup? = repeats [] (docEntries [] ls) ∧ r.errs.filterMap ParseError.date? = (docEntries [] ls).filterMap badDate ∧
      (r = .full ↔ repeats [] (docEntries [] ls) = [] ∧ (docEntries [] ls).filterMap badDate = [] ∧ ∀ e ∈ docEntries [] ls, isMixed e.2 = false) :=
  C70_meaning h.taken hn hh

/-- C43, on any text: whatever does not end with `Full`, `FullError` or a panic was not properly written. -/
theorem C43_partial_means_not_proper {i : Str} {p : Parser} {r : ParseResult} (h : Parser.new.parse i = .ok (p, r)) (hl : p.leftover ≠ []) :
    ¬ ∃ ls, DocStrict ls ∧ i = linesText ls := by
  rintro ⟨ls, hs, rfl⟩
  exact hl (hs.taken.parsed h).2

/-! ## C23 -/

/-- C23, for every scalar: a properly written scalar, of any kind, given to any properly written key, is read back as exactly that scalar. -/
theorem C23_scalar_read_back {k : Str} {s : Scalar} (hk : KeyWf k) (hs : s.strict) (hd : ∀ d, s = .dt d → d.real = true) :
    ∃ p, Parser.new.parse (k ++ lit% " = " ++ s.text) = .ok (p, .full) ∧ p.leftover = [] ∧ p.getValue k = .ok (some s.value) := by
  have h : DocStrict [([], .kv [] k ⟨lit% " ", lit% " "⟩ (.leaf s) [] none)] :=
    ⟨rfl, ⟨by simp [Blank], hk, by simp [WSSep.wf, Blank], hs, by simp [Blank], by simp [CommentWf]⟩, by simp [LinesStrict]⟩
  have ht : linesText [([], .kv [] k ⟨lit% " ", lit% " "⟩ (.leaf s) [] none)] = k ++ lit% " = " ++ s.text := by
    simp [linesText, ET.text, VT.text, optComment]
  obtain ⟨p, r, h1, h2, h3, h4, h5, h6⟩ := C43_meaning h (by simp [hasArrayTable]) (by simp [HeadersOk])
  rw [ht] at h1
  have hE : docEntries [] [([], .kv [] k ⟨lit% " ", lit% " "⟩ (.leaf s) [] none)] = [(k, .val (.leaf s))] := by
    simp [docEntries, VT.allEntries, VT.entries, dotted]
  have hd' : badDate (k, .val (.leaf s)) = none := by
    cases s with
    | dt d => rw [badDate, if_pos (hd d rfl)]
    | _ => rfl
  rw [hE] at h3 h6
  have hf : r = .full := h6.mpr ⟨by simp [repeats], by simp [hd'], by simp [isMixed]⟩
  subst hf
  refine ⟨p, h1, ?_, ?_⟩
  · rw [← ht] at h1
    exact (h.taken.parsed h1).2
  · rw [h3]
    simp [lookup, readEntry, VT.value]

/-- C23. A text that the constructor of basic or of literal strings accepts is read back, between the quotes of its kind, as exactly that string, and
nothing is left over. -/
theorem C23_strings_read_back {k s : Str} {v : Value} (hk : KeyWf k) :
    (Value.basicString s = some v → ∃ p, Parser.new.parse (k ++ lit% " = \"" ++ s ++ lit% "\"") = .ok (p, .full) ∧ p.leftover = [] ∧
      p.getValue k = .ok (some (.str s .basic))) ∧
    (Value.literalString s = some v → ∃ p, Parser.new.parse (k ++ lit% " = '" ++ s ++ lit% "'") = .ok (p, .full) ∧ p.leftover = [] ∧
      p.getValue k = .ok (some (.str s .literal))) := by
  constructor
  · intro h
    have h1 := (checked_str s .basic v).mp h
    obtain ⟨p, h2, h3, h4⟩ := C23_scalar_read_back (s := .str s .basic) hk ⟨h1.2, StrType.noEarlyEnd (.inl rfl) h1.2⟩ (by simp)
    exact ⟨p, by simpa [Scalar.text, StrType.quoted] using h2, h3, h4⟩
  · intro h
    have h1 := (checked_str s .literal v).mp h
    obtain ⟨p, h2, h3, h4⟩ := C23_scalar_read_back (s := .str s .literal) hk ⟨h1.2, StrType.noEarlyEnd (.inr rfl) h1.2⟩ (by simp)
    exact ⟨p, by simpa [Scalar.text, StrType.quoted] using h2, h3, h4⟩

example : (Value.basicString (lit% "a\\\"b # c")).isSome = true ∧ ∃ p, Parser.new.parse (lit% "\"k e y\" = \"a\\\"b # c\"") = .ok (p, .full) ∧
    p.getValue (lit% "\"k e y\"") = .ok (some (.str (lit% "a\\\"b # c") .basic)) := ⟨by decide +kernel, Out.wit (by decide +kernel)⟩

/-- C23, multi-line strings: contents the constructors accept and that do not end early are read back as well. -/
theorem C23_ml_strings_read_back {k s : Str} {v : Value} (hk : KeyWf k) :
    (Value.mlBasicString s = some v → StrType.mlBasic.NoEarlyEnd s → ∃ p, Parser.new.parse (k ++ lit% " = \"\"\"" ++ s ++ lit% "\"\"\"") = .ok (p, .full) ∧
      p.leftover = [] ∧ p.getValue k = .ok (some (.str s .mlBasic))) ∧
    (Value.mlLiteralString s = some v → StrType.mlLiteral.NoEarlyEnd s → ∃ p, Parser.new.parse (k ++ lit% " = '''" ++ s ++ lit% "'''") = .ok (p, .full) ∧
      p.leftover = [] ∧ p.getValue k = .ok (some (.str s .mlLiteral))) := by
  constructor
  · intro h hn
    have h1 := (checked_str s .mlBasic v).mp h
    obtain ⟨p, h2, h3, h4⟩ := C23_scalar_read_back (s := .str s .mlBasic) hk ⟨h1.2, hn⟩ (by simp)
    exact ⟨p, by simpa [Scalar.text, StrType.quoted] using h2, h3, h4⟩
  · intro h hn
    have h1 := (checked_str s .mlLiteral v).mp h
    obtain ⟨p, h2, h3, h4⟩ := C23_scalar_read_back (s := .str s .mlLiteral) hk ⟨h1.2, hn⟩ (by simp)
    exact ⟨p, by simpa [Scalar.text, StrType.quoted] using h2, h3, h4⟩

/-- C23, the wish fails for multi-line strings: contents with the closing quotes are accepted and read back as something else. -/
theorem C23_ml_wish_fails : (Value.mlLiteralString (lit% "a'''\nb = '''c")).isSome = true ∧
    ∃ p, Parser.new.parse (lit% "k = '''a'''\nb = '''c'''") = .ok (p, .full) ∧ p.getValue (lit% "k") = .ok (some (.str (lit% "a") .mlLiteral)) ∧
      p.getValue (lit% "b") = .ok (some (.str (lit% "c") .mlLiteral)) := ⟨by decide +kernel, Out.wit (by decide +kernel)⟩

/-! ## C40 -/

/-- C40. Two documents whose lines are taken (any texts that are read to the end, C70) that say the same - the same pairs and headers in the same order, but for blanks, line breaks, empty lines and
comments - are read alike: both panic, or both are read to the end with the same values and children at every key and the same errors but for their
positions. Arrays of tables are included. -/
theorem C40_layout_does_not_matter {ls ls' : List (Str × ET)} (h : DocTaken ls) (h' : DocTaken ls') (hc : content ls = content ls') :
    (∃ x, Parser.new.parse (linesText ls) = .panic x ∧ Parser.new.parse (linesText ls') = .panic x) ∨
    ∃ p r p' r', Parser.new.parse (linesText ls) = .ok (p, r) ∧ Parser.new.parse (linesText ls') = .ok (p', r') ∧ r.whole ∧ r'.whole ∧
      (∀ k, p.getValue k = p'.getValue k ∧ p.getChildren k = p'.getChildren k) ∧ (r = .full ↔ r' = .full) ∧
      r.errs.map ParseError.bare = r'.errs.map ParseError.bare := by
  have hs := linesSt_norm ls ls' hc (st := PState.new) (st' := PState.new) rfl
  rw [← linesEff_st, ← linesEff_st] at hs
  have h1 := C70_taken h
  have h2 := C70_taken h'
  rw [parse_fwd h] at h1
  rw [parse_fwd h'] at h2
  rw [parse_fwd h, parse_fwd h']
  unfold Same at hs
  cases ho : linesEff ls PState.new with
  | fuel => rw [ho] at h1; simp [Out.bind] at h1
  | panic x =>
    rw [ho] at hs
    left
    cases ho' : linesEff ls' PState.new <;> rw [ho'] at hs <;> simp at hs
    subst hs
    exact ⟨x, rfl, rfl⟩
  | ok x =>
    rw [ho] at hs h1
    right
    cases ho' : linesEff ls' PState.new <;> rw [ho'] at hs h2 <;> simp at hs
    rename_i y
    obtain ⟨st, ns⟩ := x
    obtain ⟨st', ns'⟩ := y
    simp only at hs
    simp only [Out.bind] at h1 h2 ⊢
    have hwh : ∀ l : List ParseError, ParseResult.whole (if l ≠ [] then .fullError l else .full) := by
      intro l
      split
      · exact .inr ⟨_, rfl⟩
      · exact .inl rfl
    refine ⟨_, _, _, _, rfl, rfl, ?_, ?_, fun k => norm_reads hs k, ?_, ?_⟩
    · exact hwh _
    · exact hwh _
    · have he : st.errors.map ParseError.bare = st'.errors.map ParseError.bare := congrArg (fun s : PState => s.errors) hs
      have : st.errors = [] ↔ st'.errors = [] := by
        rw [← List.map_eq_nil_iff (f := ParseError.bare), he, List.map_eq_nil_iff]
      by_cases h0 : st.errors = []
      · simp [h0, this.mp h0]
      · have h0' : st'.errors ≠ [] := fun hh => h0 (this.mpr hh)
        simp [h0, h0']
    · have he : st.errors.map ParseError.bare = st'.errors.map ParseError.bare := congrArg (fun s : PState => s.errors) hs
      have : ∀ l : List ParseError, ParseResult.errs (if l ≠ [] then .fullError l else .full) = l := by
        intro l
        by_cases h0 : l = [] <;> simp [h0, ParseResult.errs]
      rw [this, this, he]

example : linesText layoutA = lit% "a=[1,2]\n[[t]]" ∧ linesText layoutB = lit% "# first\r\n\n  a = [ 1, # one\n2 ]\n[[ t ]] # t\n" ∧
    content layoutA = content layoutB := ⟨rfl, rfl, rfl⟩

example : DocStrict layoutB := by
  have i1 : IntegerText (lit% "1") := (lang_integer _).mp (by
    have := Re.find_some (r := Rx.integer) (s := lit% "1") (m := lit% "1") (t := []) (by decide +kernel)
    exact this.2)
  have i2 : IntegerText (lit% "2") := (lang_integer _).mp (by
    have := Re.find_some (r := Rx.integer) (s := lit% "2") (m := lit% "2") (t := []) (by decide +kernel)
    exact this.2)
  have ks : ∀ k ∈ [lit% "a", lit% "t"], KeyWf k := by
    intro k hk
    left
    simp at hk
    rcases hk with rfl | rfl <;> exact ⟨by simp, by decide⟩
  have s0 : Spaces [] := .nil
  have s1 : Spaces (lit% " ") := Pieces.one SpacePiece.blank
  have b0 : Broken (lit% "\n") := ⟨[], .nil, .inl rfl⟩
  simp [layoutB, DocStrict, LinesStrict, ET.strict, TableType.strict, TableType.table, VT.strict, Elems.strict, Scalar.strict, Apart, SepWf, Gap, MoreComments, CommentText,
    CommentWf, WSSep.wf, Blank, NoBlank, gapText, CNL.text, remark, i1, i2, s0, s1, b0, ks]

/-! ## C35 -/

/-- C35. What was read to its end is printed as a text that is read again in the same way: the same result, the same values, the same children. -/
theorem C35_printed_is_read_again {i s : Str} {p : Parser} {r : ParseResult} (h : Parser.new.parse i = .ok (p, r)) (hr : r.whole)
    (hd : p.display = .ok s) : Parser.new.parse s = .ok (p, r) := by
  rw [C03_display_full .new h hr hd]
  exact h

end Tomllib
